import Verif.Proofs.ApproxGmres
import Verif.Props.GmresConv
import Verif.Props.GmresEx

/-!
# C99: GMRES with inexact linear algebra
-/

namespace TTS.Props

open Finset Spec

variable {env : ℕ → Env ℝ} {la : LinAlg2} {clock : ℕ → ℝ} {a : GmresArgs} {out : GmresOut} {ε η : ℝ}

theorem gRnd_approx (hla : GmresApprox env la ε η) (ha : a.Ok la) (k : ℕ) (ts : List (TT ℝ)) (eps : Option ℝ)
    (he : 0 ≤ eps.getD 0) (h : TTList ts a.b.shape) :
    ∃ Y, gRnd env la a (rkOf a) k ts eps = .ok Y ∧ Good a.b.shape Y ∧ (ts.length ≠ 1 → RanksLe Y.rank (rkOf a)) := by
  obtain ⟨Y, y1, y2, y3, y4, y5, y6, -⟩ := C98 (hla.round k) ts a.b.shape h ha.modes _ (rk_ok ha) eps he a.method 2 ha.method
    (fun _ => by norm_num)
  refine ⟨Y, by rw [gRnd, y1]; rfl, ⟨y2, y3, y4⟩, fun hl => ?_⟩
  have hle : RanksLe Y.rank (trimRanks a.b.shape (rkOf a)) := by
    by_cases hp : a.method = .pairwise
    · exact y5 hp hl
    · exact y6 hp
  exact ranksLe_trans hle (trim_trim_le (rk_ok ha).len)

theorem guess_good (ha : a.Ok la) {x0 : TT ℝ} (h : initialGuess a.A a.x0 = .ok x0) : Good a.b.shape x0 := by
  cases hx : a.x0 with
  | some x =>
    rw [hx] at h
    injection h with h
    subst h
    exact ha.x0 x hx
  | none =>
    rw [hx] at h
    have hp : processTTRank (.int 1) a.A.inShape false = .ok (List.replicate (a.b.shape.length - 1) 1) := by
      rw [ha.inShape]
      have := ha.modes
      unfold processTTRank
      simp only [List.length_replicate, Bool.false_eq_true, if_false]
      rw [if_neg (by omega)]
    obtain ⟨X, h1, h2, h3, h4, h5⟩ := C60_tt (K := ℝ) a.A.inShape (.int 1) _ hp
    have h : TT.zero a.A.inShape (.int 1) = .ok x0 := h
    rw [h1] at h
    injection h with h
    subst h
    refine ⟨h2, ⟨by rw [h3, ha.inShape]; exact b_pos ha, ?_⟩, by rw [h3, ha.inShape]⟩
    rw [h4]
    intro r hr
    rw [List.eq_of_mem_replicate hr]
    exact one_pos

/-- applying the preconditioned operator to `x` gives trains whose sum is related to `x` by `R`, and the preconditioned right-hand
side is `bPr` -/
structure OpsR (la : LinAlg2) (a : GmresArgs) (R : TT ℝ → E a.b.shape → Prop) (bPr : TT ℝ) : Prop where
  app : ∀ x, Good a.b.shape x → ∃ ys, applyPr la a.A a.precond x = .ok ys ∧ TTList ys a.b.shape ∧ R x (tvs a.b.shape ys)
  rhs : precondRhs la a.precond a.b = .ok bPr
  good : Good a.b.shape bPr

/-- what a successful run has computed -/
structure DoneR (la : LinAlg2) (a : GmresArgs) (R : TT ℝ → E a.b.shape → Prop) (bPr : TT ℝ) (out : GmresOut) (x0 : TT ℝ)
    (nu : List (TT ℝ)) (res : ℝ) (n : ℕ) : Prop where
  guess : initialGuess a.A a.x0 = .ok x0
  n0 : 0 < n
  nN : n ≤ a.maxiter
  nuLen : nu.length = n + 1
  outNu : out.nu = nu.take n
  yLen : out.y.length = n
  beta0 : out.beta ≠ 0
  betaPos : 0 ≤ out.beta
  bNorm : a.b.norm la.toLinAlg = .ok out.bNorm
  calls : out.calls.length = 2 * n + 2
  call : ∀ c ∈ out.calls, TTList c.summands a.b.shape ∧ Good a.b.shape c.result
  first : ∃ v, R x0 v ∧ tvs a.b.shape (out.calls.getD 0 noCall).summands = tv a.b.shape bPr - v
  last : (out.calls.getD (2 * n + 1) noCall).result = out.x
  sum : tvs a.b.shape (out.calls.getD (2 * n + 1) noCall).summands
    = tv a.b.shape x0 + ∑ k ∈ range n, out.y.getD k 0 • bv a.b.shape nu k
  basis : ∀ i ≤ n, nu.getD i ⟨[]⟩ = out.basis i
  scale : ∀ i ≤ n, (out.raw i).norm la.toLinAlg = .ok (out.scale i)
  sub : ∀ i < n, out.scale i ≠ 0
  zero : ∀ i t, t + 1 < i ∨ n ≤ t → out.H.get [i, t] = 0
  shape : out.H.shape = [a.maxiter + 1, a.maxiter]
  it1 : ∀ k < n, R (nu.getD k ⟨[]⟩) (tvs a.b.shape (out.calls.getD (2 * k + 1) noCall).summands)
  it2 : ∀ k < n, tvs a.b.shape (out.calls.getD (2 * k + 2) noCall).summands
    = tv a.b.shape (out.calls.getD (2 * k + 1) noCall).result - ∑ i ∈ range (k + 1), out.H.get [i, k] • bv a.b.shape nu i
  xGood : Good a.b.shape out.x
  xRank : RanksLe out.x.rank (trimRanks a.b.shape (askedRanks a.b.shape a.lastRank))
  ranks : ∀ r ∈ out.hist.rank, RanksLe r (rkOf a)
  res0 : 0 ≤ res
  sol : la.lstsq ((out.H.rows 0 (n + 1)).cols 0 n) (out.beta :: List.replicate n 0) = (out.y, [res])
  rho : out.hist.residualNorm.getLast? = some ((PyFloat.val (√ res)).div out.bNorm)

theorem initA (R : TT ℝ → E a.b.shape → Prop) {ts : List (TT ℝ)} {r0 : TT ℝ} {beta bNorm w0 : ℝ}
    (hl : TTList ts a.b.shape) (f2 : Good a.b.shape r0) (f3 : RanksLe r0.rank (rkOf a)) (hβ : 0 ≤ beta) :
    AnaA (gCfg env la clock a (rkOf a) beta bNorm) a.maxiter a.b.shape (rkOf a) R 0 (gInit clock a ts r0 beta bNorm w0) := by
  refine ⟨rfl, rfl, ?_, ?_, ?_, ?_, rfl, ?_, ?_, rfl, ?_, ?_, hβ, ?_, ?_⟩
  · intro t ht
    have ht : t ∈ [_] := ht
    rw [List.mem_singleton] at ht
    rw [ht]
    exact (good_mul f2 _).1
  · rw [if_pos rfl]; rfl
  · intro h; omega
  · intro k h; omega
  · intro i t _; exact ND.zeros_get _ _
  · intro r hr
    have hr : r ∈ [_] := hr
    rw [List.mem_singleton] at hr
    rw [hr]
    exact f3
  · intro cl hcl
    have hcl : cl ∈ [_] := hcl
    rw [List.mem_singleton] at hcl
    rw [hcl]
    exact ⟨hl, f2⟩
  · intro k h; omega
  · intro h; omega
  · intro h; omega

theorem run_approx (hla : GmresApprox env la ε η) (ha : a.Ok la) (ht : 0 ≤ a.tol) {R : TT ℝ → E a.b.shape → Prop} {bPr : TT ℝ}
    (ops : OpsR la a R bPr) (h : gmres env la clock a = .ok out) : ∃ x0 nu res n, DoneR la a R bPr out x0 nu res n := by
  obtain ⟨maxRank, x0, bPr', ax, r0, w0, st, y, r⟩ := gmres_inv h
  have hb := ops.good
  have hrk : processTTRank a.maxRank a.A.inShape true = .ok (rkOf a) := by
    rw [ha.inShape, process_asked, if_pos ha.maxRank.len]; rfl
  have e1 := hrk.symm.trans r.rank
  injection e1 with e1
  subst e1
  have g0 := guess_good ha r.guess
  have eb : bPr' = bPr := by
    have := r.rhs
    rw [ops.rhs] at this
    injection this with this
    exact this.symm
  subst eb
  obtain ⟨ax', q1, q2, q3⟩ := ops.app x0 g0
  rw [r.app] at q1
  injection q1 with q1
  subst q1
  have hl : TTList (bPr' :: ax.map fun t => TT.mul t (-1)) a.b.shape := ttList_cons hb fun u hu => by
    obtain ⟨t, ht, rfl⟩ := List.mem_map.1 hu
    exact (good_mul (q2.each t ht) (-1)).1
  have hsum : tvs a.b.shape (bPr' :: ax.map fun t => TT.mul t (-1)) = tv a.b.shape bPr' - tvs a.b.shape ax := by
    show _ + tvs a.b.shape _ = _
    rw [tvs_neg q2.each, ← sub_eq_add_neg]
  obtain ⟨r0', f1, f2, f3⟩ := gRnd_approx hla ha 0 _ none le_rfl hl
  rw [r.first] at f1
  injection f1 with f1
  subst f1
  have f3 := f3 (by
    rw [List.length_cons, List.length_map]
    intro h
    exact q2.ne (List.length_eq_zero_iff.1 (by omega)))
  have hN : 0 < a.maxiter := by
    rcases Nat.eq_zero_or_pos a.maxiter with h0 | h0
    · have := r.loop
      rw [h0] at this
      injection this with this
      have hs := r.sol
      rw [← this] at hs
      cases hs
    · exact h0
  have hβ := norm_nonneg' r.beta
  have hc : CfgA (gCfg env la clock a (rkOf a) out.beta out.bNorm) a.b.shape (rkOf a) R :=
    ⟨ops.app, fun k ts eps he h => gRnd_approx hla ha k ts eps he h, ht, hβ⟩
  have init := initA (env := env) (la := la) (clock := clock) (a := a) (bNorm := out.bNorm) (w0 := w0) R hl f2 f3 hβ
  obtain ⟨n, n0, nN, An⟩ := AnaA.loop hc hla.lstsq hN init r.loop
  obtain ⟨cs, hcs⟩ := loop_calls hN r.loop
  have hcs : st.calls = [⟨bPr' :: ax.map fun t => TT.mul t (-1), none, r0⟩] ++ cs := hcs
  have hfirst := loop_first hN (t := r0.mul (1 / out.beta)) (ts := []) rfl r.loop
  obtain ⟨y', hy, hsol⟩ := An.sol n0
  have hyy : y' = y := by
    have := r.sol
    rw [hy] at this
    injection this
  subst hyy
  have hsol : la.lstsq ((st.H.rows 0 (n + 1)).cols 0 n) (out.beta :: List.replicate n 0) = (y', [st.res]) := hsol
  have yl : y'.length = n := by
    have := (hla.lstsq _ (out.beta :: List.replicate n 0) (n + 1) n (red_shape An.shape nN) (by simp) (by omega)).1
    rw [hsol] at this
    exact this
  have hit := An.iters
  have hnl := An.nu
  have ey : out.y = y' := by rw [r.outy, hit, List.take_of_length_le (by omega)]
  have hgt : ∀ t ∈ st.nu.take n, Good a.b.shape t := fun t ht => An.good t (List.mem_of_mem_take ht)
  obtain ⟨z1, z2⟩ := tvs_zip (s := a.b.shape) (ts := st.nu.take n) (cs := y') hgt (by
    rw [List.length_take, hnl, yl]; omega)
  have htake : (st.nu.take st.iters) = st.nu.take n := by rw [hit]
  have hytake : y'.take st.iters = y' := by rw [hit, List.take_of_length_le (by omega)]
  have hlast := r.last
  rw [htake, hytake] at hlast
  have hll : TTList (x0 :: List.zipWith TT.mul (st.nu.take n) y') a.b.shape := ttList_cons g0 z1
  obtain ⟨Y, p1, p2, p3, p4, p5, p6, -⟩ := C98 (hla.round (2 * st.iters + 1)) _ a.b.shape hll ha.modes a.lastRank ha.lastRank
    none le_rfl a.lastMethod 2 ha.lastMethod (fun _ => by norm_num)
  rw [p1] at hlast
  have hx : Y = out.x := by injection hlast
  have hlen : (x0 :: List.zipWith TT.mul (st.nu.take n) y').length ≠ 1 := by
    rw [List.length_cons, List.length_zipWith, List.length_take, hnl, yl]; omega
  have xg : Good a.b.shape out.x := by rw [← hx]; exact ⟨p2, p3, p4⟩
  have hoc : out.calls = st.calls ++ [⟨x0 :: List.zipWith TT.mul (st.nu.take n) y', none, out.x⟩] := by
    rw [r.calls, htake, hytake]
  have hcl := An.calls
  have hat : ∀ q < 2 * n + 1, out.calls.getD q noCall = st.calls.getD q noCall := fun q hq => by
    rw [hoc, List.getD_append _ _ _ _ (by omega)]
  have hend : out.calls.getD (2 * n + 1) noCall = ⟨x0 :: List.zipWith TT.mul (st.nu.take n) y', none, out.x⟩ := by
    rw [hoc, List.getD_append_right _ _ _ _ (by omega), hcl]; simp
  have h00 : out.calls.getD 0 noCall = ⟨bPr' :: ax.map fun t => TT.mul t (-1), none, r0⟩ := by
    rw [hat 0 (by omega), hcs]; rfl
  refine ⟨x0, st.nu, st.res, n, ?_⟩
  constructor
  · exact r.guess
  · exact n0
  · exact nN
  · exact hnl
  · rw [r.nu, htake]
  · rw [ey]; exact yl
  · exact An.beta n0
  · exact hβ
  · exact r.bNorm
  · rw [hoc, List.length_append, hcl]; rfl
  · intro c hc
    rw [hoc] at hc
    rcases List.mem_append.1 hc with hc | hc
    · exact An.call c hc
    · rw [List.mem_singleton] at hc; rw [hc]; exact ⟨hll, xg⟩
  · rw [h00]; exact ⟨_, q3, hsum⟩
  · rw [hend]
  · rw [hend]
    show _ + tvs a.b.shape _ = _
    rw [z2, ey, yl]
    congr 1
    refine sum_congr rfl fun k hk => ?_
    have hk := mem_range.1 hk
    rw [bv, List.getD_eq_getElem?_getD (l := st.nu.take n), List.getElem?_take, if_pos hk, ← List.getD_eq_getElem?_getD]
  · intro i hi
    unfold GmresOut.basis GmresOut.raw GmresOut.scale
    cases i with
    | zero => rw [hfirst, if_pos rfl, mul_zero, h00]
    | succ i =>
      rw [(An.it i (by omega)).nxt, if_neg (by omega), Nat.add_sub_cancel, r.H, show 2 * (i + 1) = 2 * i + 2 by ring,
        hat _ (by omega)]
  · intro i hi
    unfold GmresOut.raw GmresOut.scale
    cases i with
    | zero => rw [if_pos rfl, mul_zero, h00]; exact r.beta
    | succ i =>
      rw [if_neg (by omega), Nat.add_sub_cancel, r.H, show 2 * (i + 1) = 2 * i + 2 by ring, hat _ (by omega)]
      exact (An.it i (by omega)).nrm
  · intro i hi
    unfold GmresOut.scale
    cases i with
    | zero => rw [if_pos rfl]; exact An.beta n0
    | succ i => rw [if_neg (by omega), Nat.add_sub_cancel, r.H]; exact An.sub i hi
  · rw [r.H]; exact An.zero
  · rw [r.H]; exact An.shape
  · intro k hk
    rw [hat _ (by omega)]
    exact (An.it k hk).sum1
  · intro k hk
    rw [hat _ (by omega), hat _ (by omega), r.H]
    exact (An.it k hk).sum2
  · exact xg
  · rw [← hx]
    by_cases hp : a.lastMethod = .pairwise
    · exact p5 hp hlen
    · exact p6 hp
  · rw [r.hist]; exact An.ranks
  · exact An.res
  · rw [r.H, ey]; exact hsol
  · rw [r.hist]; exact An.rho n0

/-! ### Norms -/

theorem good_norm_approx (hla : GmresApprox env la ε η) {s : List ℕ} {t : TT ℝ} (h : Good s t) {v : ℝ}
    (hv : t.norm la.toLinAlg = .ok v) :
    |v - fnorm s t.toNumpy.get| ≤ (s.length - 1 : ℕ) * ε * (1 + ε) ^ (s.length - 1) * t.coreNorms := by
  obtain ⟨h1, h2, rfl⟩ := h
  obtain ⟨w, w1, w2⟩ := C93_norm (hla.round 0).nonneg (hla.round 0).qr h1 h2
  rw [hv] at w1
  injection w1 with w1
  rw [w1]
  have e : fnorm t.shape t.toNumpy.get = frobN t.toNumpy := by rw [fnorm, ← TT.toNumpy_shape h1]; rfl
  rw [e]
  exact w2

theorem listNorm_e1 {beta : ℝ} (h : 0 ≤ beta) (n : ℕ) : listNorm (beta :: List.replicate n 0) = beta := by
  unfold listNorm
  rw [List.length_cons, List.length_replicate]
  simp only [e1_getD]
  rw [sum_eq_single 0 (fun i _ hi => by rw [if_neg hi]; ring) fun h => absurd (mem_range.2 (by omega)) h, if_pos rfl,
    Real.sqrt_sq h]

theorem red_norm {H : ND ℝ} {N n : ℕ} (hH : H.shape = [N + 1, N]) (hn : n ≤ N)
    (hz : ∀ i t, t + 1 < i ∨ n ≤ t → H.get [i, t] = 0) : frobN ((H.rows 0 (n + 1)).cols 0 n) = frobN H := by
  have hs := ND.rows_shape hH 0 (n + 1)
  unfold frobN normSq
  rw [red_shape hH hn, hH]
  simp only [sumIdx_cons, sumIdx_nil]
  congr 1
  rw [← sum_subset (range_subset_range.2 (by omega : n + 1 ≤ N + 1)) fun i _ hi => by
    rw [mem_range, not_lt] at hi
    refine sum_eq_zero fun t _ => ?_
    rw [hz i t (by omega)]; ring]
  refine sum_congr rfl fun i hi => ?_
  rw [← sum_subset (range_subset_range.2 hn) fun t _ ht => by
    rw [mem_range, not_lt] at ht
    rw [hz i t (by omega)]; ring]
  refine sum_congr rfl fun t ht => ?_
  rw [ND.cols_get hs 0 n i t (by have := mem_range.1 ht; omega),
    ND.rows_get hH 0 (n + 1) i (0 + t) (by have := mem_range.1 hi; omega), zero_add, zero_add]

namespace DoneR

variable {R : TT ℝ → E a.b.shape → Prop} {bPr x0 : TT ℝ} {nu : List (TT ℝ)} {res : ℝ} {n : ℕ}

theorem rhoVal (d : DoneR la a R bPr out x0 nu res n) {ρ : ℝ} (hρ : out.hist.residualNorm.getLast? = some (.val ρ)) :
    √ res = ρ * out.bNorm := by
  rw [d.rho] at hρ
  injection hρ with hρ
  have hρ : (if out.bNorm = 0 then (if √ res = 0 then PyFloat.nan else .inf) else .val (√ res / out.bNorm)) = .val ρ := hρ
  by_cases h0 : out.bNorm = 0
  · rw [if_pos h0] at hρ
    split_ifs at hρ
  · rw [if_neg h0] at hρ
    injection hρ with hρ
    rw [← hρ]
    field_simp

theorem lsqErr (d : DoneR la a R bPr out x0 nu res n) (hl : la.LstsqApprox η) :
    |√ res - √ (lsq (fun i t => out.H.get [i, t]) out.beta n fun t => out.y.getD t 0)|
      ≤ η * (frobN out.H * listNorm out.y + out.beta) := by
  have := (hl _ (out.beta :: List.replicate n 0) (n + 1) n (red_shape d.shape d.nN) (by simp) (by omega)).2.2
  rw [d.sol] at this
  have := (this res (by simp)).2
  rw [residSq_lsq d.shape, red_norm d.shape d.nN d.zero, listNorm_e1 d.betaPos] at this
  exact this

theorem callMem (d : DoneR la a R bPr out x0 nu res n) {q : ℕ} (hq : q < 2 * n + 2) : out.calls.getD q noCall ∈ out.calls := by
  rw [List.getD_eq_getElem _ _ (by rw [d.calls]; exact hq)]
  exact List.getElem_mem _

/-- the part of the last vector that is lost when its computed norm is zero -/
noncomputable def lostVec (out : GmresOut) (s : List ℕ) (k : ℕ) : E s :=
  tv s (out.calls.getD (2 * k + 2) noCall).result - out.H.get [k + 1, k] • tv s (out.basis (k + 1))

theorem rawSucc (out : GmresOut) (k : ℕ) : out.raw (k + 1) = (out.calls.getD (2 * k + 2) noCall).result := by
  rw [GmresOut.raw, show 2 * (k + 1) = 2 * k + 2 by ring]

theorem scaleSucc (out : GmresOut) (k : ℕ) : out.scale (k + 1) = out.H.get [k + 1, k] := by
  rw [GmresOut.scale, if_neg (by omega), Nat.add_sub_cancel]

theorem lost_zero (d : DoneR la a R bPr out x0 nu res n) {k : ℕ} (hk : k < n) (h : out.H.get [k + 1, k] ≠ 0) :
    lostVec out a.b.shape k = 0 := by
  rw [lostVec, GmresOut.basis, rawSucc, scaleSucc, (good_mul (d.call _ (d.callMem (by omega))).2 _).2, smul_smul,
    mul_one_div_cancel h, one_smul, sub_self]

theorem lost_all (d : DoneR la a R bPr out x0 nu res n) {k : ℕ} (h : out.H.get [k + 1, k] = 0) :
    lostVec out a.b.shape k = tv a.b.shape (out.raw (k + 1)) := by
  rw [lostVec, h, zero_smul, sub_zero, rawSucc]

theorem arnoldi (d : DoneR la a R bPr out x0 nu res n) {k : ℕ} (hk : k < n) : ∃ v, R (out.basis k) v ∧
    v = ∑ i ∈ range (n + 1), out.H.get [i, k] • tv a.b.shape (out.basis i)
      - (cerr a.b.shape (out.calls.getD (2 * k + 1) noCall) + cerr a.b.shape (out.calls.getD (2 * k + 2) noCall)
        - lostVec out a.b.shape k) := by
  have hb : ∀ i ≤ n, bv a.b.shape nu i = tv a.b.shape (out.basis i) := fun i hi => by rw [bv, d.basis i hi]
  have h1 := d.it1 k hk
  rw [d.basis k hk.le] at h1
  have h2 := d.it2 k hk
  rw [sum_congr rfl fun i hi => by rw [hb i (by have := mem_range.1 hi; omega)]] at h2
  have e : ∑ i ∈ range (n + 1), out.H.get [i, k] • tv a.b.shape (out.basis i)
      = ∑ i ∈ range (k + 1), out.H.get [i, k] • tv a.b.shape (out.basis i)
        + out.H.get [k + 1, k] • tv a.b.shape (out.basis (k + 1)) := by
    rw [← sum_range_succ]
    symm
    refine sum_subset (range_subset_range.2 (by omega)) fun i _ hi => ?_
    rw [mem_range, not_lt] at hi
    rw [d.zero i k (Or.inl (by omega)), zero_smul]
  refine ⟨_, h1, ?_⟩
  rw [e, cerr, cerr, h2, lostVec]
  abel

theorem start (d : DoneR la a R bPr out x0 nu res n) : ∃ v, R x0 v ∧ tv a.b.shape bPr - v
    = out.beta • tv a.b.shape (out.basis 0) - cerr a.b.shape (out.calls.getD 0 noCall) := by
  obtain ⟨v, v1, v2⟩ := d.first
  have hs : out.scale 0 = out.beta := rfl
  refine ⟨v, v1, ?_⟩
  rw [cerr, v2, GmresOut.basis, GmresOut.raw, mul_zero, (good_mul (d.call _ (d.callMem (by omega))).2 _).2, smul_smul, hs,
    mul_one_div_cancel d.beta0, one_smul]
  abel

/-- the residual of the original system, when multiplying by `T` undoes the preconditioner up to the errors `D` -/
theorem boundT (d : DoneR la a R bPr out x0 nu res n) (T L : E a.b.shape →ₗ[ℝ] E a.b.shape) (D : TT ℝ → ℝ)
    (hR : ∀ x v, R x v → ‖T v - L (tv a.b.shape x)‖ ≤ D x) :
    ‖tv a.b.shape a.b - L (tv a.b.shape out.x)‖
      ≤ √ (∑ i ∈ range (n + 1), ‖T (tv a.b.shape (out.basis i))‖ ^ 2)
          * √ (lsq (fun i t => out.H.get [i, t]) out.beta n fun t => out.y.getD t 0)
        + ‖T (cerr a.b.shape (out.calls.getD 0 noCall))‖
        + ∑ k ∈ range n, |out.y.getD k 0| * (‖T (cerr a.b.shape (out.calls.getD (2 * k + 1) noCall))‖
            + ‖T (cerr a.b.shape (out.calls.getD (2 * k + 2) noCall))‖)
        + |out.y.getD (n - 1) 0| * (if out.scale n = 0 then ‖T (tv a.b.shape (out.raw n))‖ else 0)
        + ‖L (cerr a.b.shape (out.calls.getD (2 * n + 1) noCall))‖
        + (‖T (tv a.b.shape bPr) - tv a.b.shape a.b‖ + D x0 + ∑ k ∈ range n, |out.y.getD k 0| * D (out.basis k)) := by
  have n0 := d.n0
  have hb : ∀ i ≤ n, bv a.b.shape nu i = tv a.b.shape (out.basis i) := fun i hi => by rw [bv, d.basis i hi]
  obtain ⟨v0, hv0, hv0'⟩ := d.start
  choose! v hv hv' using fun k (hk : k < n) => d.arnoldi hk
  have hT0 := congrArg T hv0'
  rw [map_sub, map_sub, map_smul] at hT0
  have key := arnoldi_bound L (fun i => tv a.b.shape (out.basis i)) (fun i => T (tv a.b.shape (out.basis i)))
    (fun i t => out.H.get [i, t]) out.beta n
    (tv a.b.shape a.b - L (tv a.b.shape x0))
    (T (cerr a.b.shape (out.calls.getD 0 noCall)) + (T (tv a.b.shape bPr) - tv a.b.shape a.b) - (T v0 - L (tv a.b.shape x0)))
    (fun k => T (cerr a.b.shape (out.calls.getD (2 * k + 1) noCall)) + T (cerr a.b.shape (out.calls.getD (2 * k + 2) noCall))
      - T (lostVec out a.b.shape k) + (T (v k) - L (tv a.b.shape (out.basis k)))) (by
      have e : tv a.b.shape a.b - L (tv a.b.shape x0) = (T (tv a.b.shape bPr) - T v0)
        - (T (tv a.b.shape bPr) - tv a.b.shape a.b) + (T v0 - L (tv a.b.shape x0)) := by abel
      rw [e, hT0]; abel) (by
      intro k hk
      have e := congrArg T (hv' k hk)
      rw [map_sub, map_sub, map_add, map_sum] at e
      rw [sum_congr rfl fun i _ => (map_smul T _ _).symm]
      rw [sub_eq_iff_eq_add.1 e.symm]
      abel) fun t => out.y.getD t 0
  have ex : tv a.b.shape out.x = tv a.b.shape x0 + ∑ k ∈ range n, out.y.getD k 0 • tv a.b.shape (out.basis k)
      + cerr a.b.shape (out.calls.getD (2 * n + 1) noCall) := by
    have es : ∑ k ∈ range n, out.y.getD k 0 • bv a.b.shape nu k = ∑ k ∈ range n, out.y.getD k 0 • tv a.b.shape (out.basis k) :=
      sum_congr rfl fun k hk => by rw [hb k (by have := mem_range.1 hk; omega)]
    rw [cerr, d.last, d.sum, es]
    abel
  have e : tv a.b.shape a.b - L (tv a.b.shape out.x)
      = tv a.b.shape a.b - L (tv a.b.shape x0) - L (∑ k ∈ range n, out.y.getD k 0 • tv a.b.shape (out.basis k))
        - L (cerr a.b.shape (out.calls.getD (2 * n + 1) noCall)) := by
    rw [ex, map_add, map_add]; abel
  rw [e]
  refine (norm_sub_le _ _).trans ((add_le_add key le_rfl).trans ?_)
  have hterm : ∀ k ∈ range n, |out.y.getD k 0| * ‖T (cerr a.b.shape (out.calls.getD (2 * k + 1) noCall))
        + T (cerr a.b.shape (out.calls.getD (2 * k + 2) noCall)) - T (lostVec out a.b.shape k)
        + (T (v k) - L (tv a.b.shape (out.basis k)))‖
      ≤ |out.y.getD k 0| * (‖T (cerr a.b.shape (out.calls.getD (2 * k + 1) noCall))‖
            + ‖T (cerr a.b.shape (out.calls.getD (2 * k + 2) noCall))‖)
        + (if k = n - 1 then |out.y.getD (n - 1) 0| * (if out.scale n = 0 then ‖T (tv a.b.shape (out.raw n))‖ else 0) else 0)
        + |out.y.getD k 0| * D (out.basis k) := by
    intro k hk
    have hk := mem_range.1 hk
    have hlost : |out.y.getD k 0| * ‖T (lostVec out a.b.shape k)‖
        = if k = n - 1 then |out.y.getD (n - 1) 0| * (if out.scale n = 0 then ‖T (tv a.b.shape (out.raw n))‖ else 0) else 0 := by
      by_cases h : k = n - 1
      · obtain rfl : n = k + 1 := by omega
        rw [if_pos h, Nat.add_sub_cancel]
        by_cases h' : out.H.get [k + 1, k] = 0
        · rw [d.lost_all h', if_pos (by rw [scaleSucc]; exact h')]
        · rw [d.lost_zero hk h', if_neg (by rw [scaleSucc]; exact h'), map_zero, norm_zero]
      · rw [if_neg h, d.lost_zero hk (by rw [← scaleSucc]; exact d.sub _ (by omega)), map_zero, norm_zero, mul_zero]
    rw [← hlost, ← mul_add, ← mul_add]
    refine mul_le_mul_of_nonneg_left ?_ (abs_nonneg _)
    exact (norm_add_le _ _).trans (add_le_add ((norm_sub_le _ _).trans (add_le_add (norm_add_le _ _) le_rfl)) (hR _ _ (hv k hk)))
  have hsum := sum_le_sum hterm
  rw [sum_add_distrib, sum_add_distrib, sum_ite_eq' (range n) (n - 1), if_pos (mem_range.2 (by omega))] at hsum
  have h0 : ‖T (cerr a.b.shape (out.calls.getD 0 noCall)) + (T (tv a.b.shape bPr) - tv a.b.shape a.b)
      - (T v0 - L (tv a.b.shape x0))‖ ≤ ‖T (cerr a.b.shape (out.calls.getD 0 noCall))‖
        + ‖T (tv a.b.shape bPr) - tv a.b.shape a.b‖ + D x0 :=
    (norm_sub_le _ _).trans (add_le_add (norm_add_le _ _) (hR _ _ hv0))
  linarith

end DoneR

/-- without a preconditioner -/
theorem ops_plainR (ha : a.Ok la) (hp : a.Plain) : ∃ A P : E a.b.shape →ₗ[ℝ] E a.b.shape, Ops la a A P ∧
    OpsR la a (fun x v => v = (P ∘ₗ A) (tv a.b.shape x)) a.b := by
  obtain ⟨A, P, ops⟩ := ops_plain ha hp.precond hp.maps
  exact ⟨A, P, ops, ops.app, by rw [hp.precond]; rfl, ⟨ha.b.1, ha.b.2, rfl⟩⟩

theorem DoneR.bound {L : E a.b.shape →ₗ[ℝ] E a.b.shape} {x0 : TT ℝ} {nu : List (TT ℝ)} {res : ℝ} {n : ℕ}
    (d : DoneR la a (fun x v => v = L (tv a.b.shape x)) a.b out x0 nu res n) :
    ‖tv a.b.shape a.b - L (tv a.b.shape out.x)‖
      ≤ √ (∑ i ∈ range (n + 1), ‖tv a.b.shape (out.basis i)‖ ^ 2)
          * √ (lsq (fun i t => out.H.get [i, t]) out.beta n fun t => out.y.getD t 0)
        + ‖cerr a.b.shape (out.calls.getD 0 noCall)‖
        + ∑ k ∈ range n, |out.y.getD k 0| * (‖cerr a.b.shape (out.calls.getD (2 * k + 1) noCall)‖
            + ‖cerr a.b.shape (out.calls.getD (2 * k + 2) noCall)‖)
        + |out.y.getD (n - 1) 0| * (if out.scale n = 0 then ‖tv a.b.shape (out.raw n)‖ else 0)
        + ‖L (cerr a.b.shape (out.calls.getD (2 * n + 1) noCall))‖ := by
  have := d.boundT LinearMap.id L (fun _ => 0) (fun x v h => by rw [h, LinearMap.id_apply, sub_self, norm_zero])
  simp only [LinearMap.id_apply, sub_self, norm_zero, mul_zero, sum_const_zero, add_zero] at this
  exact this

/-- **C99.** GMRES whose roundings, norms and reduced systems are only accurate up to relative errors `ε` and `η`, without
preconditioner.  The result is a well-formed tensor train with ranks at most the trimmed `final_round_rank`; the ranks in the
history are at most the trimmed `max_rank`. -/
theorem C99_ranks (hla : GmresApprox env la ε η) (ha : a.Ok la) (hp : a.Plain) (ht : 0 ≤ a.tol)
    (h : gmres env la clock a = .ok out) :
    out.x.Valid ∧ out.x.shape = a.A.inShape ∧
    RanksLe out.x.rank (trimRanks a.b.shape (askedRanks a.b.shape a.lastRank)) ∧
    ∀ r ∈ out.hist.rank, RanksLe r (trimRanks a.b.shape (askedRanks a.b.shape a.maxRank)) := by
  obtain ⟨A, P, ops, opsR⟩ := ops_plainR ha hp
  obtain ⟨x0, nu, res, n, d⟩ := run_approx hla ha ht opsR h
  exact ⟨d.xGood.1, d.xGood.2.2.trans ha.inShape.symm, d.xRank, d.ranks⟩

/-- **C99.** The basis of a run with inexact linear algebra: the vectors that `save_basis` returns are the rounded ones divided
by their computed norms, which are nonzero, and computed norms are accurate relative to the norms of the cores. -/
theorem C99_basis (hla : GmresApprox env la ε η) (ha : a.Ok la) (hp : a.Plain) (ht : 0 ≤ a.tol)
    (h : gmres env la clock a = .ok out) :
    out.nu.length = out.y.length ∧
    (∀ i < out.y.length, out.nu.getD i ⟨[]⟩ = out.basis i ∧ out.scale i ≠ 0) ∧
    (∀ i ≤ out.y.length, |out.scale i - fnorm a.b.shape (out.raw i).toNumpy.get|
      ≤ (a.b.shape.length - 1 : ℕ) * ε * (1 + ε) ^ (a.b.shape.length - 1) * (out.raw i).coreNorms) ∧
    |out.bNorm - fnorm a.b.shape a.b.toNumpy.get|
      ≤ (a.b.shape.length - 1 : ℕ) * ε * (1 + ε) ^ (a.b.shape.length - 1) * a.b.coreNorms := by
  obtain ⟨A, P, ops, opsR⟩ := ops_plainR ha hp
  obtain ⟨x0, nu, res, n, d⟩ := run_approx hla ha ht opsR h
  have n0 := d.n0
  rw [d.yLen]
  refine ⟨by rw [d.outNu, List.length_take, d.nuLen]; omega, fun i hi => ⟨?_, d.sub i hi⟩, fun i hi => ?_,
    good_norm_approx hla ⟨ha.b.1, ha.b.2, rfl⟩ d.bNorm⟩
  · rw [← d.basis i hi.le, d.outNu, List.getD_eq_getElem?_getD, List.getElem?_take, if_pos hi, ← List.getD_eq_getElem?_getD]
  · exact good_norm_approx hla (d.call _ (d.callMem (by omega))).2 (d.scale i hi)

/-- **C99.** The residual of the result of a successful run with `n` iterations and last reported residual `ρ` is at most the
norm of the basis times the reported residual `ρ ‖b‖` and the error in it, plus the rounding errors as in C57 and, if the last
computed norm is zero, what is lost by that. -/
theorem C99 (hla : GmresApprox env la ε η) (ha : a.Ok la) (hp : a.Plain) (ht : 0 ≤ a.tol)
    (h : gmres env la clock a = .ok out) {g ge : List ℕ → ℝ} (hg : a.Image out.x.toNumpy.get g) {n : ℕ}
    (hn : out.y.length = n) (hge : a.Image (out.calls.getD (2 * n + 1) noCall).err ge) {ρ : ℝ}
    (hρ : out.hist.residualNorm.getLast? = some (.val ρ)) :
    0 < n ∧ n ≤ a.maxiter ∧ out.calls.length = 2 * n + 2 ∧ (out.calls.getD (2 * n + 1) noCall).result = out.x ∧
    fnorm a.b.shape (fun i => a.b.toNumpy.get i - g i)
      ≤ √ (∑ i ∈ range (n + 1), fnorm a.b.shape (out.basis i).toNumpy.get ^ 2)
          * (ρ * out.bNorm + η * (frobN out.H * listNorm out.y + out.beta))
        + fnorm a.b.shape (out.calls.getD 0 noCall).err
        + ∑ k ∈ range n, |out.y.getD k 0| * (fnorm a.b.shape (out.calls.getD (2 * k + 1) noCall).err
            + fnorm a.b.shape (out.calls.getD (2 * k + 2) noCall).err)
        + |out.y.getD (n - 1) 0| * (if out.scale n = 0 then fnorm a.b.shape (out.raw n).toNumpy.get else 0)
        + fnorm a.b.shape ge := by
  obtain ⟨A, P, ops, opsR⟩ := ops_plainR ha hp
  obtain ⟨x0, nu, res, n', d⟩ := run_approx hla ha ht opsR h
  obtain rfl : n' = n := d.yLen.symm.trans hn
  refine ⟨d.n0, d.nN, d.calls, d.last, ?_⟩
  have hcl : ∀ q < 2 * n' + 2, fnorm a.b.shape (out.calls.getD q noCall).err = ‖cerr a.b.shape (out.calls.getD q noCall)‖ :=
    fun q hq => by rw [fnorm_eq, cerr_eq (d.call _ (d.callMem hq)).1]
  have e1 : fnorm a.b.shape (fun i => a.b.toNumpy.get i - g i)
      = ‖tv a.b.shape a.b - (P ∘ₗ A) (tv a.b.shape out.x)‖ := by
    rw [fnorm_eq, tv, tv, LinearMap.comp_apply, ← (image_iff ops _ _).1 hg, ← map_sub]
    rfl
  have e2 : fnorm a.b.shape ge = ‖(P ∘ₗ A) (cerr a.b.shape (out.calls.getD (2 * n' + 1) noCall))‖ := by
    rw [fnorm_eq, (image_iff ops _ _).1 hge, cerr_eq (d.call _ (d.callMem (by omega))).1]; rfl
  have hle := (abs_sub_comm _ _).trans_le (d.lsqErr hla.lstsq)
  rw [d.rhoVal hρ] at hle
  have hle := (abs_le.1 hle).2
  rw [e1, e2]
  refine d.bound.trans ?_
  refine add_le_add (add_le_add (add_le_add (add_le_add ?_ ?_) ?_) ?_) le_rfl
  · have e3 : ∀ i ∈ range (n' + 1), fnorm a.b.shape (out.basis i).toNumpy.get ^ 2 = ‖tv a.b.shape (out.basis i)‖ ^ 2 :=
      fun i _ => by rw [fnorm_eq]; rfl
    rw [sum_congr rfl e3]
    exact mul_le_mul_of_nonneg_left (by linarith) (Real.sqrt_nonneg _)
  · rw [hcl 0 (by omega)]
  · refine le_of_eq (sum_congr rfl fun k hk => ?_)
    have hk := mem_range.1 hk
    rw [hcl _ (by omega), hcl _ (by omega)]
  · rw [fnorm_eq]
    exact le_rfl

/-! ### Errors -/

theorem norm_okA (hla : GmresApprox env la ε η) {s : List ℕ} {t : TT ℝ} (h : Good s t) : ∃ v, t.norm la.toLinAlg = .ok v := by
  obtain ⟨v, hv, -⟩ := C93_norm (hla.round 0).nonneg (hla.round 0).qr h.1 h.2.1
  exact ⟨v, hv⟩

theorem step_casesA {c : GmresCfg} {N : ℕ} {s rk : List ℕ} {R : TT ℝ → E s → Prop} (hc : CfgA c s rk R)
    (hn : ∀ t, Good s t → ∃ v, t.norm c.la.toLinAlg = .ok v) {j : ℕ} {st : GmresSt} (h : AnaA c N s rk R j st) :
    (∃ p, gmresStep c j st = .ok p) ∨ gmresStep c j st = .error .nonFinite ∨
      gmresStep c j st = .error .valueError ∧ ∃ H e, ∀ r, (c.la.lstsq H e).2 ≠ [r] := by
  by_cases h0 : ¬ st.finite ∨ st.res = 0
  · right; left
    unfold gmresStep
    rw [if_pos h0]
  · have hm := minJ_le c.symmetric j
    have hδ : 0 ≤ (some (c.tol / (st.res / c.beta))).getD 0 := div_nonneg hc.tol (div_nonneg h.res hc.beta)
    have hne : st.nu ≠ [] := by intro h0; have := h.nu; rw [h0] at this; simp at this
    have hlast : Good s (st.nu.getLastD ⟨[]⟩) := by
      rw [List.getLastD_eq_getLast?, List.getLast?_eq_some_getLast hne]
      exact h.good _ (List.getLast_mem hne)
    obtain ⟨ys, a1, a2, -⟩ := hc.ap _ hlast
    obtain ⟨w, b1, b2, -⟩ := hc.rnd (2 * j + 1) ys _ hδ a2
    have hll : ((st.nu.take (j + 1)).drop (minJ c.symmetric j)).length = j + 1 - minJ c.symmetric j := by
      rw [List.length_drop, List.length_take, h.nu]; omega
    obtain ⟨g1, -⟩ := tvs_gs (s := s) (hColumn st.H w st.nu (minJ c.symmetric j) j) j
      ((st.nu.take (j + 1)).drop (minJ c.symmetric j)) (minJ c.symmetric j) (by
        intro u hu
        exact h.good u (List.mem_of_mem_take (List.mem_of_mem_drop hu)))
    rw [hll] at g1
    have gsl : TTList (gramSchmidt (hColumn st.H w st.nu (minJ c.symmetric j) j) w st.nu (minJ c.symmetric j) j) s :=
      ttList_cons b2 g1
    obtain ⟨w', c1, c2, -⟩ := hc.rnd (2 * j + 2) _ _ hδ gsl
    obtain ⟨v, hv⟩ := hn w' c2
    unfold gmresStep
    rw [if_neg h0]
    dsimp only
    rw [a1]
    simp only [Except.andThen]
    rw [b1]
    simp only
    rw [c1]
    simp only
    rw [hv]
    simp only
    generalize e5 : c.la.lstsq _ _ = sol
    obtain ⟨y, rs⟩ := sol
    match rs, e5 with
    | [r], _ => exact .inl ⟨_, rfl⟩
    | [], e5 => exact .inr (.inr ⟨rfl, _, _, fun r => by rw [e5]; simp⟩)
    | _ :: _ :: _, e5 => exact .inr (.inr ⟨rfl, _, _, fun r => by rw [e5]; simp⟩)

theorem loop_casesA {c : GmresCfg} {N : ℕ} {s rk : List ℕ} {R : TT ℝ → E s → Prop} (hc : CfgA c s rk R)
    (hl : c.la.LstsqApprox η) (hn : ∀ t, Good s t → ∃ v, t.norm c.la.toLinAlg = .ok v) : ∀ (fuel j : ℕ)
    {st : GmresSt}, j + fuel = N → AnaA c N s rk R j st →
    (∃ p, gmresLoop c fuel j st = .ok p) ∨ gmresLoop c fuel j st = .error .nonFinite ∨
      gmresLoop c fuel j st = .error .valueError ∧ ∃ H e, ∀ r, (c.la.lstsq H e).2 ≠ [r]
  | 0, _, st, _, _ => Or.inl ⟨st, rfl⟩
  | fuel + 1, j, st, hj, h => by
    rcases step_casesA hc hn h with ⟨p, hp⟩ | hp | ⟨hp, hx⟩
    · rw [gmresLoop, hp]
      show (∃ q, (if p.2 = true then .ok p.1 else gmresLoop c fuel (j + 1) p.1) = _) ∨
        (if p.2 = true then .ok p.1 else gmresLoop c fuel (j + 1) p.1) = _ ∨
        (if p.2 = true then .ok p.1 else gmresLoop c fuel (j + 1) p.1) = _ ∧ _
      by_cases hb : p.2 = true
      · rw [if_pos hb]; exact Or.inl ⟨p.1, rfl⟩
      · rw [if_neg hb]
        exact loop_casesA hc hl hn fuel (j + 1) (by omega) (h.step hc hl (by omega) (b := p.2) hp)
    · rw [gmresLoop, hp]; exact Or.inr (Or.inl rfl)
    · rw [gmresLoop, hp]; exact Or.inr (Or.inr ⟨rfl, hx⟩)

theorem errors_of (hla : GmresApprox env la ε η) (ha : a.Ok la) (ht : 0 ≤ a.tol) {R : TT ℝ → E a.b.shape → Prop} {bPr : TT ℝ}
    (ops : OpsR la a R bPr) :
    (a.maxiter = 0 → gmres env la clock a = .error .unboundLocalError) ∧
    (0 < a.maxiter → (∃ out, gmres env la clock a = .ok out) ∨ gmres env la clock a = .error .nonFinite ∨
      gmres env la clock a = .error .valueError ∧ ∃ H e, ∀ r, (la.lstsq H e).2 ≠ [r]) := by
  have hb := ops.good
  have hrk : processTTRank a.maxRank a.A.inShape true = .ok (rkOf a) := by
    rw [ha.inShape, process_asked, if_pos ha.maxRank.len]; rfl
  obtain ⟨x0, x1⟩ : ∃ x0, initialGuess a.A a.x0 = .ok x0 := by
    cases hx : a.x0 with
    | some x => exact ⟨x, rfl⟩
    | none =>
      have hp : processTTRank (.int 1) a.A.inShape false = .ok (List.replicate (a.b.shape.length - 1) 1) := by
        rw [ha.inShape]
        have := ha.modes
        unfold processTTRank
        simp only [List.length_replicate, Bool.false_eq_true, if_false]
        rw [if_neg (by omega)]
      obtain ⟨X, h1, -⟩ := C60_tt (K := ℝ) a.A.inShape (.int 1) _ hp
      exact ⟨X, h1⟩
  have g0 := guess_good ha x1
  have hrhs := ops.rhs
  obtain ⟨bNorm, n1⟩ := norm_okA hla ⟨ha.b.1, ha.b.2, rfl⟩
  obtain ⟨ax, q1, q2, q3⟩ := ops.app x0 g0
  have hl : TTList (bPr :: ax.map fun t => TT.mul t (-1)) a.b.shape := ttList_cons hb fun u hu => by
    obtain ⟨t, ht, rfl⟩ := List.mem_map.1 hu
    exact (good_mul (q2.each t ht) (-1)).1
  obtain ⟨r0, f1, f2, f3⟩ := gRnd_approx hla ha 0 _ none le_rfl hl
  have f3 := f3 (by
    rw [List.length_cons, List.length_map]
    intro h
    exact q2.ne (List.length_eq_zero_iff.1 (by omega)))
  obtain ⟨beta, n2⟩ := norm_okA hla f2
  obtain ⟨w0, n3⟩ := norm_okA hla (good_mul f2 (1 / beta)).1
  have key : gmres env la clock a =
      (gmresLoop (gCfg env la clock a (rkOf a) beta bNorm) a.maxiter 0
        (gInit clock a (bPr :: ax.map fun t => TT.mul t (-1)) r0 beta bNorm w0)).andThen
        (gFinish env la clock a x0 beta bNorm) := by
    unfold gmres
    dsimp only
    rw [if_neg (by rw [ha.outShape]; simp), if_neg, if_neg (by rw [ha.outShape, ha.inShape]; simp), hrk]
    · show (initialGuess a.A a.x0).andThen _ = _
      rw [x1]
      show (precondRhs la a.precond a.b).andThen _ = _
      rw [hrhs]
      show (a.b.norm la.toLinAlg).andThen _ = _
      rw [n1]
      show (applyPr la a.A a.precond x0).andThen _ = _
      rw [q1]
      show (gRnd env la a (rkOf a) 0 (bPr :: ax.map fun t => TT.mul t (-1)) none).andThen _ = _
      rw [f1]
      show (r0.norm la.toLinAlg).andThen _ = _
      rw [n2]
      show ((r0.mul (1 / beta)).norm la.toLinAlg).andThen _ = _
      rw [n3]
      rfl
    · rintro ⟨x, hx, hne⟩
      exact hne (by rw [ha.inShape]; exact (ha.x0 x hx).2.2)
  rw [key]
  refine ⟨fun h0 => by rw [h0]; rfl, fun h0 => ?_⟩
  have hβ := norm_nonneg' n2
  have hc : CfgA (gCfg env la clock a (rkOf a) beta bNorm) a.b.shape (rkOf a) R :=
    ⟨ops.app, fun k ts eps he h => gRnd_approx hla ha k ts eps he h, ht, hβ⟩
  have init := initA (env := env) (la := la) (clock := clock) (a := a) (bNorm := bNorm) (w0 := w0) R hl f2 f3 hβ
  rcases loop_casesA hc hla.lstsq (fun t h => norm_okA hla h) a.maxiter 0 (by omega) init with ⟨st, h⟩ | h | ⟨h, hx⟩
  · obtain ⟨n, n0, nN, An⟩ := AnaA.loop hc hla.lstsq h0 init h
    rw [h]
    refine .inl ?_
    show ∃ out, gFinish env la clock a x0 beta bNorm st = .ok out
    obtain ⟨y, hy, hsol⟩ := An.sol n0
    have hsol : la.lstsq ((st.H.rows 0 (n + 1)).cols 0 n) (beta :: List.replicate n 0) = (y, [st.res]) := hsol
    have yl : y.length = n := by
      have := (hla.lstsq _ (beta :: List.replicate n 0) (n + 1) n (red_shape An.shape nN) (by simp) (by omega)).1
      rw [hsol] at this
      exact this
    have hit := An.iters
    have hnl := An.nu
    have e : (st.nu.take st.iters).length = (y.take st.iters).length := by
      rw [List.length_take, List.length_take, hit, hnl, yl]; omega
    obtain ⟨z1, -⟩ := tvs_zip (s := a.b.shape) (ts := st.nu.take st.iters) (cs := y.take st.iters)
      (fun t ht => An.good t (List.mem_of_mem_take ht)) e
    obtain ⟨Y, y1, -⟩ := C98 (hla.round (2 * st.iters + 1)) _ a.b.shape (ttList_cons g0 z1) ha.modes a.lastRank ha.lastRank
      none le_rfl a.lastMethod 2 ha.lastMethod (fun _ => by norm_num)
    unfold gFinish
    rw [hy]
    dsimp only
    rw [if_neg (by rw [e]; simp), y1]
    exact ⟨_, rfl⟩
  · rw [h]; exact .inr (.inl rfl)
  · rw [h]; exact .inr (.inr ⟨rfl, hx⟩)

/-- **C99, errors.** Inexact linear algebra adds no new way to fail: a run succeeds, divides by zero (`nonFinite`), or raises
`ValueError` because `lstsq` did not return exactly one residual; `UnboundLocalError` for `maxiter=0` only. -/
theorem C99_errors (hla : GmresApprox env la ε η) (ha : a.Ok la) (hp : a.Plain) (ht : 0 ≤ a.tol) :
    (a.maxiter = 0 → gmres env la clock a = .error .unboundLocalError) ∧
    (0 < a.maxiter → (∃ out, gmres env la clock a = .ok out) ∨ gmres env la clock a = .error .nonFinite ∨
      gmres env la clock a = .error .valueError ∧ ∃ H e, ∀ r, (la.lstsq H e).2 ≠ [r]) := by
  obtain ⟨A, P, ops, opsR⟩ := ops_plainR ha hp
  exact errors_of hla ha ht opsR

/-! ### The reduced system -/

theorem resid_pert {H H' : ND ℝ} {m n : ℕ} (hH : H.shape = [m, n]) (e e' : List ℝ) (z : ℕ → ℝ) :
    √ (residSq H e m n z) ≤ √ (residSq H' e' m n z) + frobD H H' * √ (∑ t ∈ range n, z t ^ 2)
      + √ (∑ i ∈ range m, (e.getD i 0 - e'.getD i 0) ^ 2) := by
  have t1 := sqrt_sum_add_le (range m)
    (fun i => (e'.getD i 0 - ∑ t ∈ range n, H'.get [i, t] * z t) + (∑ t ∈ range n, H'.get [i, t] * z t - ∑ t ∈ range n, H.get [i, t] * z t))
    fun i => e.getD i 0 - e'.getD i 0
  have t2 := sqrt_sum_add_le (range m) (fun i => e'.getD i 0 - ∑ t ∈ range n, H'.get [i, t] * z t)
    fun i => ∑ t ∈ range n, H'.get [i, t] * z t - ∑ t ∈ range n, H.get [i, t] * z t
  have t3 : √ (∑ i ∈ range m, (∑ t ∈ range n, H'.get [i, t] * z t - ∑ t ∈ range n, H.get [i, t] * z t) ^ 2)
      ≤ frobD H H' * √ (∑ t ∈ range n, z t ^ 2) := by
    refine (Real.sqrt_le_left (mul_nonneg (Real.sqrt_nonneg _) (Real.sqrt_nonneg _))).2 ?_
    rw [mul_pow]
    show _ ≤ frobD H H' ^ 2 * _
    rw [frobD_mat hH, Real.sq_sqrt (sum_nonneg fun _ _ => sq_nonneg _), sum_mul]
    refine sum_le_sum fun i _ => ?_
    rw [← sum_sub_distrib]
    refine le_trans (le_of_eq ?_) (sum_mul_sq_le_sq_mul_sq (range n) (fun t => H.get [i, t] - H'.get [i, t]) z)
    rw [← neg_sq, ← sum_neg_distrib]
    congr 1
    exact sum_congr rfl fun t _ => by ring
  have e1 : residSq H e m n z = ∑ i ∈ range m, (((e'.getD i 0 - ∑ t ∈ range n, H'.get [i, t] * z t)
      + (∑ t ∈ range n, H'.get [i, t] * z t - ∑ t ∈ range n, H.get [i, t] * z t)) + (e.getD i 0 - e'.getD i 0)) ^ 2 :=
    sum_congr rfl fun i _ => by ring
  rw [e1]
  have e2 : residSq H' e' m n z = ∑ i ∈ range m, (e'.getD i 0 - ∑ t ∈ range n, H'.get [i, t] * z t) ^ 2 := rfl
  rw [e2]
  linarith

/-- **C99, optimality.** The last reported residual is nearly the smallest possible one of the reduced system. -/
theorem C99_least (hη : 0 ≤ η) (hla : GmresApprox env la ε η) (ha : a.Ok la) (hp : a.Plain) (ht : 0 ≤ a.tol)
    (h : gmres env la clock a = .ok out) {n : ℕ} (hn : out.y.length = n) {ρ : ℝ}
    (hρ : out.hist.residualNorm.getLast? = some (.val ρ)) (z : ℕ → ℝ) :
    ρ * out.bNorm ≤ √ (lsq (fun i t => out.H.get [i, t]) out.beta n z)
      + η * (frobN out.H * (2 * listNorm out.y + √ (∑ t ∈ range n, z t ^ 2)) + 3 * out.beta) := by
  obtain ⟨A, P, ops, opsR⟩ := ops_plainR ha hp
  obtain ⟨x0, nu, res, n', d⟩ := run_approx hla ha ht opsR h
  obtain rfl : n' = n := d.yLen.symm.trans hn
  have hle := (abs_le.1 (d.lsqErr hla.lstsq)).2
  rw [d.rhoVal hρ] at hle
  have hs := red_shape (k := n') d.shape d.nN
  obtain ⟨-, ⟨H', e', s1, s2, s3, s4⟩, -⟩ := hla.lstsq _ (out.beta :: List.replicate n' 0) (n' + 1) n' hs (by simp) (by omega)
  rw [d.sol] at s4
  rw [red_norm d.shape d.nN d.zero] at s2
  rw [listNorm_e1 d.betaPos] at s3
  have q1 := resid_pert hs (out.beta :: List.replicate n' 0) e' (H' := H') fun t => out.y.getD t 0
  have q2 := resid_pert s1 e' (out.beta :: List.replicate n' 0) (H' := (out.H.rows 0 (n' + 1)).cols 0 n') z
  rw [residSq_lsq d.shape] at q1 q2
  have q3 := Real.sqrt_le_sqrt (s4 z)
  have sym : √ (∑ i ∈ range (n' + 1), (e'.getD i 0 - (out.beta :: List.replicate n' 0).getD i 0) ^ 2)
      = √ (∑ i ∈ range (n' + 1), ((out.beta :: List.replicate n' 0).getD i 0 - e'.getD i 0) ^ 2) := by
    congr 1
    exact sum_congr rfl fun i _ => by ring
  rw [sym, frobD_symm (hs.trans s1.symm)] at q2
  have hy : √ (∑ t ∈ range n', out.y.getD t 0 ^ 2) = listNorm out.y := by rw [listNorm, d.yLen]
  rw [hy] at q1
  have m1 : frobD ((out.H.rows 0 (n' + 1)).cols 0 n') H' * listNorm out.y ≤ η * frobN out.H * listNorm out.y :=
    mul_le_mul_of_nonneg_right s2 (Real.sqrt_nonneg _)
  have m2 : frobD ((out.H.rows 0 (n' + 1)).cols 0 n') H' * √ (∑ t ∈ range n', z t ^ 2)
      ≤ η * frobN out.H * √ (∑ t ∈ range n', z t ^ 2) :=
    mul_le_mul_of_nonneg_right s2 (Real.sqrt_nonneg _)
  nlinarith [q1, q2, q3, m1, m2, s3, hle]

/-! ### The hypotheses can be met -/

/-- Exact routines meet the hypotheses with `η = 0`. -/
theorem lstsqApprox_of_exact {la : LinAlg2} (h : la.LstsqOk) {η : ℝ} (hη : 0 ≤ η) : la.LstsqApprox η := by
  intro H e m n hH he hmn
  obtain ⟨h1, h2, h3, h4⟩ := h H e m n hH he hmn
  refine ⟨h1, ⟨H, e, hH, ?_, ?_, h2⟩, fun r hr => ?_⟩
  · rw [frobD_self]; exact mul_nonneg hη (Real.sqrt_nonneg _)
  · simp only [sub_self, ne_eq, OfNat.ofNat_ne_zero, not_false_eq_true, zero_pow, sum_const_zero, Real.sqrt_zero]
    exact mul_nonneg hη (Real.sqrt_nonneg _)
  · by_cases hf : FullColumnRank H m n
    · rw [h3 hf, List.mem_singleton] at hr
      rw [hr]
      refine ⟨sum_nonneg fun _ _ => sq_nonneg _, ?_⟩
      rw [sub_self, abs_zero]
      exact mul_nonneg hη (add_nonneg (mul_nonneg (Real.sqrt_nonneg _) (Real.sqrt_nonneg _)) (Real.sqrt_nonneg _))
    · rw [h4 hf] at hr
      cases hr

/-- an inexact routine: too small solutions and too large residuals -/
noncomputable def badLeast (η : ℝ) (H : ND ℝ) (e : List ℝ) : List ℝ × List ℝ :=
  ((la2Choice.lstsq H e).1.map (· / (1 + η)),
    [(√ (residSq H e (H.dim 0) (H.dim 1) fun t => ((la2Choice.lstsq H e).1.map (· / (1 + η))).getD t 0) + η * listNorm e) ^ 2])

theorem badLeast_approx {η : ℝ} (hη : 0 ≤ η) {la : LinAlg2} (h : la.lstsq = badLeast η) : la.LstsqApprox η := by
  intro H e m n hH he hmn
  obtain ⟨h1, h2, -, -⟩ := la2Choice_lstsq H e m n hH he hmn
  have hd0 : H.dim 0 = m := by simp [ND.dim, hH]
  have hd1 : H.dim 1 = n := by simp [ND.dim, hH]
  have hne : 1 + η ≠ 0 := by positivity
  have hp : 0 ≤ listNorm e := Real.sqrt_nonneg _
  rw [h]
  unfold badLeast
  rw [hd0, hd1]
  generalize (la2Choice.lstsq H e).1 = y at h1 h2
  have hget : ∀ t, (y.map (· / (1 + η))).getD t 0 = y.getD t 0 / (1 + η) := by
    intro t
    rw [List.getD_eq_getElem?_getD, List.getElem?_map, List.getD_eq_getElem?_getD]
    cases y[t]? <;> simp
  refine ⟨by simpa using h1, ⟨ND.ofFn [m, n] fun i => (1 + η) * H.get i, e, rfl, ?_, ?_, fun z => ?_⟩, fun r hr => ?_⟩
  · refine (Real.sqrt_le_left (mul_nonneg hη (Real.sqrt_nonneg _))).2 ?_
    rw [mul_pow]
    show _ ≤ η ^ 2 * frobN H ^ 2
    rw [frobN_mat hH]
    unfold distSq
    rw [hH]
    show ∑ i ∈ range m, ∑ j ∈ range n, _ ≤ _
    rw [mul_sum]
    refine le_of_eq (sum_congr rfl fun i hi => ?_)
    rw [mul_sum]
    refine sum_congr rfl fun j hj => ?_
    show (H.get [i, j] - (ND.ofFn [m, n] fun i => (1 + η) * H.get i).get [i, j]) ^ 2 = _
    rw [ND.ofFn_get (by rw [inR2]; exact ⟨mem_range.1 hi, mem_range.1 hj⟩)]
    ring
  · simp only [sub_self, ne_eq, OfNat.ofNat_ne_zero, not_false_eq_true, zero_pow, sum_const_zero, Real.sqrt_zero]
    exact mul_nonneg hη hp
  · have e1 : ∀ w : ℕ → ℝ, residSq (ND.ofFn [m, n] fun i => (1 + η) * H.get i) e m n w
        = residSq H e m n fun t => (1 + η) * w t := by
      intro w
      refine sum_congr rfl fun i hi => ?_
      congr 2
      refine sum_congr rfl fun t ht => ?_
      rw [ND.ofFn_get (by rw [inR2]; exact ⟨mem_range.1 hi, mem_range.1 ht⟩)]
      ring
    rw [e1, e1]
    refine le_trans (le_of_eq ?_) (h2 _)
    congr 1
    funext t
    rw [hget]
    field_simp
  · simp only [List.mem_singleton] at hr
    rw [hr]
    refine ⟨sq_nonneg _, ?_⟩
    rw [Real.sqrt_sq (add_nonneg (Real.sqrt_nonneg _) (mul_nonneg hη hp)), add_sub_cancel_left, abs_of_nonneg (mul_nonneg hη hp)]
    refine mul_le_mul_of_nonneg_left ?_ hη
    have : 0 ≤ frobN H * listNorm (y.map (· / (1 + η))) := mul_nonneg (Real.sqrt_nonneg _) (Real.sqrt_nonneg _)
    linarith

/-- inexact routines for the whole solver -/
noncomputable def badLa2 (ε η : ℝ) : LinAlg2 := ⟨badLa ε, solveTriChoice, badLeast η⟩

theorem gmresBad {ε η : ℝ} (h0 : 0 ≤ ε) (h1 : ε ≤ 1) (hη : 0 ≤ η) (env : ℕ → Env ℝ) :
    GmresApprox (fun k => badBoth ε (env k)) (badLa2 ε η) ε η :=
  ⟨fun _ => roundBad h0 h1 _, badLeast_approx hη rfl⟩

theorem args5_plain : args5.Plain := ⟨rfl, fun P h => by
  have h : LinMap.precond P ∈ [LinMap.mpo mpo5] := h
  simp at h⟩

/-- `C99_errors` for inexact routines: with them the only possible failure is a division by zero. -/
example (clock : ℕ → ℝ) : (∃ out, gmres (fun _ => badBoth (1 / 10 ^ 15) env8) (badLa2 (1 / 10 ^ 15) (1 / 10 ^ 14)) clock args5 = .ok out) ∨
    gmres (fun _ => badBoth (1 / 10 ^ 15) env8) (badLa2 (1 / 10 ^ 15) (1 / 10 ^ 14)) clock args5 = .error .nonFinite := by
  have ok : args5.Ok (badLa2 (1 / 10 ^ 15) (1 / 10 ^ 14)) :=
    ⟨args5_ok.op, fun m hm => by
      have hm' : m ∈ [LinMap.mpo mpo5] := hm
      rw [List.mem_singleton] at hm'
      subst hm'
      exact args5_ok.maps _ hm, args5_ok.ranks, rfl, rfl, args5_ok.b, args5_ok.modes, args5_ok.x0,
      (fun P h => by cases h), args5_ok.maxRank, args5_ok.lastRank, args5_ok.method, args5_ok.lastMethod⟩
  have := (C99_errors (clock := clock) (gmresBad (ε := 1 / 10 ^ 15) (η := 1 / 10 ^ 14) (by norm_num) (by norm_num) (by norm_num)
    fun _ => env8) ok args5_plain (by show (0 : ℝ) ≤ 1 / 10 ^ 6; norm_num)).2 (by show 0 < 100; omega)
  rcases this with h | h | ⟨-, H, e, h⟩
  · exact .inl h
  · exact .inr h
  · exact absurd rfl (h _)

/-- A run to which the theorems apply. -/
example (clock : ℕ → ℝ) : ∃ (env : ℕ → Env ℝ) (la : LinAlg2) (out : GmresOut), GmresApprox env la (1 / 10 ^ 15) (1 / 10 ^ 14) ∧
    args5.Ok la ∧ args5.Plain ∧ gmres env la clock args5 = .ok out := by
  obtain ⟨out, h, -⟩ := args5_run clock
  have hsvd : laChoice.SVDApprox (1 / 10 ^ 15) := by
    intro M m n hM
    have h := laChoice_svd M m n hM
    refine ⟨h.shapeU, h.shapeV, M, _, _, hM, h, ?_, ?_, ?_⟩ <;> rw [frobD_self] <;>
      first | exact mul_nonneg (by norm_num) (Real.sqrt_nonneg _) | norm_num
  have e : gmres (fun _ => badBoth (1 / 10 ^ 15) env8) la2Choice clock args5 = gmres (fun _ => env8) la2Choice clock args5 := rfl
  refine ⟨_, la2Choice, out, ⟨fun _ => ⟨by norm_num, approxQr_of_exact laChoice_qr (by norm_num), hsvd,
    badBoth_lstsq env8 (by norm_num), badBoth_qr env8 (by norm_num)⟩, lstsqApprox_of_exact la2Choice_lstsq (by norm_num)⟩,
    args5_ok, args5_plain, e.trans h⟩

end TTS.Props
