import Mathlib.Analysis.InnerProductSpace.Projection.Minimal
import Verif.Props.Gmres
import Verif.Props.GmresConv
import Verif.Props.LinMapSum

/-!
# The hypotheses of C56-C58 can be met
-/

namespace TTS.Props

open Finset Spec

/-! ### A least squares routine -/

theorem exists_least (H : ND ℝ) (e : List ℝ) (m n : ℕ) :
    ∃ y : List ℝ, y.length = n ∧ ∀ z, residSq H e m n (fun t => y.getD t 0) ≤ residSq H e m n z := by
  let T : (Fin n → ℝ) →ₗ[ℝ] EuclideanSpace ℝ (Fin m) :=
    { toFun := fun z => WithLp.toLp 2 fun i => ∑ t : Fin n, H.get [i.1, t.1] * z t
      map_add' := by
        intro x y; ext i
        simp only [Pi.add_apply, mul_add, sum_add_distrib, PiLp.add_apply]
      map_smul' := by
        intro c x; ext i
        simp only [Pi.smul_apply, smul_eq_mul, RingHom.id_apply, mul_sum, PiLp.smul_apply]
        exact sum_congr rfl fun t _ => by ring }
  let u : EuclideanSpace ℝ (Fin m) := WithLp.toLp 2 fun i => e.getD i.1 0
  have key : ∀ z : Fin n → ℝ, ∀ c : ℕ → ℝ, (∀ t : Fin n, c t.1 = z t) → residSq H e m n c = ‖u - T z‖ ^ 2 := by
    intro z c hc
    rw [EuclideanSpace.norm_sq_eq, residSq, Finset.sum_range]
    refine sum_congr rfl fun i _ => ?_
    rw [Real.norm_eq_abs, sq_abs]
    congr 1
    show _ = e.getD i.1 0 - ∑ t : Fin n, H.get [i.1, t.1] * z t
    rw [Finset.sum_range]
    congr 1
    exact sum_congr rfl fun t _ => by rw [hc]
  obtain ⟨v, ⟨z0, rfl⟩, hv⟩ := Submodule.exists_norm_eq_iInf_of_complete_subspace (LinearMap.range T)
    (Submodule.complete_of_finiteDimensional _) u
  refine ⟨List.ofFn z0, by simp, fun z => ?_⟩
  rw [key z0 _ (fun t => by rw [List.getD_eq_getElem _ _ (by simp)]; simp), key (fun t => z t.1) z fun _ => rfl]
  refine pow_le_pow_left₀ (norm_nonneg _) ?_ 2
  rw [hv]
  exact ciInf_le ⟨0, by rintro _ ⟨w, rfl⟩; exact norm_nonneg _⟩
    (⟨T fun t => z t.1, ⟨_, rfl⟩⟩ : LinearMap.range T)

open Classical in
/-- A routine that does what numpy's documentation says. -/
noncomputable def leastChoice (H : ND ℝ) (e : List ℝ) : List ℝ × List ℝ :=
  let y := (exists_least H e (H.dim 0) (H.dim 1)).choose
  (y, if FullColumnRank H (H.dim 0) (H.dim 1) then [residSq H e (H.dim 0) (H.dim 1) fun t => y.getD t 0] else [])

/-- All routines of the solver. -/
noncomputable def la2Choice : LinAlg2 := ⟨laChoice, solveTriChoice, leastChoice⟩

theorem la2Choice_lstsq : la2Choice.LstsqOk := by
  intro H e m n hH he hmn
  have h0 : H.dim 0 = m := by simp [ND.dim, hH]
  have h1 : H.dim 1 = n := by simp [ND.dim, hH]
  have hs := (exists_least H e (H.dim 0) (H.dim 1)).choose_spec
  show (leastChoice H e).1.length = n ∧ _
  unfold la2Choice
  dsimp only
  unfold leastChoice
  dsimp only
  generalize (exists_least H e (H.dim 0) (H.dim 1)).choose = y at hs
  rw [h0, h1] at hs
  rw [h0, h1]
  exact ⟨hs.1, hs.2, fun h => if_pos h, fun h => if_neg h⟩

/-- The assumptions on the external routines can be met. -/
theorem gmresEnv8 : GmresEnv (fun _ => env8) la2Choice :=
  ⟨fun _ => roundEnv8, solveTriChoice_ok rfl, la2Choice_lstsq⟩

/-! ### Arguments with an MPO, a preconditioner and every rounding method -/

noncomputable def sum9 : LinMapSum := ⟨[2, 3, 2], [2, 3, 2], [.mpo mpo2, .precond (.new la2Choice precA [2, 3, 2] 0)]⟩

noncomputable def args9 (m mf : RoundMode) : GmresArgs :=
  { A := sum9, b := x9, maxRank := .seq [2, 1], precond := some (.new la2Choice precA [2, 3, 2] 0),
    finalRoundRank := some (.int 1), x0 := some z9, method := m, methodFinal := mf }

theorem precA_ok : (LinMap.precond (.new la2Choice precA [2, 3, 2] 0)).Ok la2Choice := by
  refine ⟨precA, 2, rfl, rfl, ?_, by decide, by decide⟩
  rw [Matrix.det_fin_two]
  simp [ND.asMatrix, precA, ND.ofFn_get']

/-- Such arguments are well formed. -/
theorem args9_ok (m mf : RoundMode) (hm : m = .exact ∨ m = .pairwise ∨ m = .sketch ∨ m = .orthSketch)
    (hf : mf ≠ .unknown) : (args9 m mf).Ok la2Choice where
  op := by
    refine (C54_new _).1 [2, 3, 2] [2, 3, 2] (by simp [args9, sum9]) fun l hl => ?_
    simp only [args9, sum9, List.mem_cons, List.not_mem_nil, or_false] at hl
    rcases hl with rfl | rfl
    · exact ⟨rfl, rfl⟩
    · exact ⟨rfl, rfl⟩
  maps := by
    intro l hl
    simp only [args9, sum9, List.mem_cons, List.not_mem_nil, or_false] at hl
    rcases hl with rfl | rfl
    · exact mpo2_valid
    · exact precA_ok
  ranks := by
    intro A hA r hr
    simp only [args9, sum9, List.mem_cons, List.not_mem_nil, or_false] at hA
    rcases hA with hA | hA
    · injection hA with hA
      subst hA
      have : r ∈ [2, 1] := hr
      simp at this
      omega
    · cases hA
  inShape := rfl
  outShape := rfl
  b := ⟨x9_valid, x9_pos⟩
  modes := show 2 ≤ x9.shape.length by decide
  x0 := by
    intro x hx
    injection hx with hx
    subst hx
    exact list9.each z9 (by simp)
  precond := by
    intro P hP
    injection hP with hP
    subst hP
    exact ⟨precA_ok, rfl⟩
  maxRank := ⟨show (askedRanks x9.shape (.seq [2, 1])).length + 1 = x9.shape.length by decide,
    show ∀ r ∈ askedRanks x9.shape (.seq [2, 1]), 0 < r by decide⟩
  lastRank := ⟨show (askedRanks x9.shape (.int 1)).length + 1 = x9.shape.length by decide,
    show ∀ r ∈ askedRanks x9.shape (.int 1), 0 < r by decide⟩
  method := hm
  lastMethod := by
    unfold GmresArgs.lastMethod
    show (if mf = .none then m else mf) = _ ∨ (if mf = .none then m else mf) = _ ∨ (if mf = .none then m else mf) = _ ∨
      (if mf = .none then m else mf) = _
    cases mf <;> simp_all

/-! ### A run that converges -/

/-- with a second mode of size one nothing is ever cut off -/
theorem loop_thin {la : LinAlg} (hs : la.SVDOk) {C D : ND ℝ} {r : ℕ} (hD : D.shape = [r, 1, 1]) {eps : ℝ} {mr : List ℕ}
    {o : List (ND ℝ)} {disc : List (List ℝ)} (h : TT.roundLoop la eps mr none [D, C] = .ok (o, disc)) :
    ∀ S ∈ disc, ∀ σ ∈ S, σ = 0 := by
  rw [TT.roundLoop] at h
  dsimp only at h
  have d0 : D.dim 0 = r := by simp [ND.dim, hD]
  have d1 : D.dim 1 = 1 := by simp [ND.dim, hD]
  have d2 : D.dim 2 = 1 := by simp [ND.dim, hD]
  rw [d0, d1, d2] at h
  have hl := (hs (D.reshape [r, 1 * 1]) r 1 rfl).length
  generalize la.svd (D.reshape [r, 1 * 1]) = q at h hl
  by_cases h0 : q.2.1 = []
  · rw [if_pos h0] at h; cases h
  rw [if_neg h0] at h
  generalize hk : keepRank q.2.1 eps (mr.getD [].length 0) = k at h
  have hk1 : 1 ≤ k := by rw [← hk]; exact le_max_left _ _
  cases hV : (q.2.2.rows 0 k).reshape? [k, 1, 1] with
  | error e => rw [hV] at h; cases h
  | ok V =>
    rw [hV] at h
    dsimp only at h
    rw [TT.roundLoop] at h
    injection h with h
    injection h with _ h
    subst h
    intro S hS
    rw [List.mem_singleton] at hS
    subst hS
    intro σ hσ
    rw [List.drop_eq_nil_of_le (by omega)] at hσ
    cases hσ

theorem round_thin {la : LinAlg} (hq : la.QROk) (hs : la.SVDOk) {X : TT ℝ} (hX : X.Valid) (hp : X.Pos) {n : ℕ}
    (hsh : X.shape = [n, 1]) (eps : Option ℝ) (a : RankArg) (ha : (askedRanks X.shape a).length + 1 = X.shape.length)
    {Y : TT ℝ} (h : X.round la eps (some a) false = .ok Y) : Y.toNumpy = X.toNumpy := by
  obtain ⟨Y', disc, h1, h2, -, -, h5⟩ := C20 hq hs hX hp eps (some a) false
    (fun b hb => by injection hb with hb; rw [← hb]; exact ha) (by intro h; cases h)
  rw [h] at h2
  injection h2 with h2
  subst h2
  refine h5 ?_
  obtain ⟨O, o1, o2, -, o4, -⟩ := round_input hq hX hp false
  unfold TT.roundTrace at h1
  rw [o1] at h1
  dsimp only at h1
  cases e2 : processTTRank ((some a).getD (.seq O.rank)) O.shape true with
  | error e => rw [e2] at h1; cases h1
  | ok mr =>
    rw [e2] at h1
    dsimp only at h1
    have hO : O.shape = [n, 1] := o4.trans hsh
    obtain ⟨C, D, hc, r, hD⟩ : ∃ C D, O.cores = [C, D] ∧ ∃ r, D.shape = [r, 1, 1] := by
      obtain ⟨hne, hch⟩ := o2
      obtain ⟨cores⟩ := O
      dsimp only at hne hch
      match cores, hch, hO with
      | [C, D], hch, hO =>
        obtain ⟨n1, r, h1, n2, s, h2, rfl⟩ := hch
        refine ⟨C, D, rfl, r, ?_⟩
        have : [C.dim 1, D.dim 1] = [n, 1] := hO
        injection this with _ this
        injection this with this
        have e : D.dim 1 = n2 := by simp [ND.dim, h2]
        rw [h2, ← e, this]
      | [], _, hO => exact absurd (congrArg List.length hO) (by simp [TT.shape])
      | [_], _, hO => exact absurd (congrArg List.length hO) (by simp [TT.shape])
      | _ :: _ :: _ :: _, _, hO => exact absurd (congrArg List.length hO) (by simp [TT.shape])
    rw [hc] at h1
    have h1 : (match TT.roundLoop la (eps.getD 0) mr none [D, C] with
      | .error e => .error e
      | .ok out => .ok (⟨out.1.reverse⟩, out.2)) = Except.ok (Y, disc) := h1
    cases e3 : TT.roundLoop la (eps.getD 0) mr none [D, C] with
    | error e => rw [e3] at h1; cases h1
    | ok q =>
      rw [e3] at h1
      injection h1 with h1
      injection h1 with _ h1
      subst h1
      exact loop_thin hs hD e3

/-- rounding sums of trains of shape `(n, 1)` never loses anything -/
theorem thin_lossless {env : Env ℝ} {la : LinAlg} (hq : la.QROk) (hs : la.SVDOk) {n : ℕ} {ts : List (TT ℝ)}
    (h : TTList ts [n, 1]) (a : RankArg) (ha : RankOk [n, 1] a) (eps : Option ℝ) {Y : TT ℝ}
    (hY : roundTTSum env la ts a eps .exact 2 = .ok (.tt Y)) : Y.toNumpy = (ttSum ts).toNumpy := by
  have hn := ttSum_toNumpy_shape h
  have hg := ttSum_get h
  cases ts with
  | nil => exact absurd rfl h.ne
  | cons t ts =>
    obtain ⟨b1, b2, -⟩ := foldl_add (by simp : 2 ≤ [n, 1].length) ts t (h.each t (by simp)) fun u hu => h.each u (by simp [hu])
    have e : (ts.foldl TT.add t).toNumpy = (ttSum (t :: ts)).toNumpy :=
      ND.ext' (by rw [TT.toNumpy_shape b1.1, b1.2.2, hn]) fun i _ => by rw [b2, hg]; simp
    have hY : ((ts.foldl TT.add t).round la eps (some a) false).map Rounded.tt = .ok (.tt Y) := hY
    cases hr : (ts.foldl TT.add t).round la eps (some a) false with
    | error e => rw [hr] at hY; cases hY
    | ok Z =>
      rw [hr] at hY
      injection hY with hY
      injection hY with hY
      subst hY
      rw [← e]
      exact round_thin hq hs b1.1 b1.2.1 b1.2.2 eps a (by rw [b1.2.2]; exact ha.len) hr

/-- The matrix `[[2, 0], [1, 3]]` (rows: output) as an MPO on `2 × 1`. -/
noncomputable def mpo5 : MPO ℝ := ⟨[ND.ofFn [1, 2, 2, 1] fun i =>
  if i = [0, 0, 0, 0] then 2 else if i = [0, 0, 1, 0] then 1 else if i = [0, 1, 1, 0] then 3 else 0,
  ND.ofFn [1, 1, 1, 1] fun _ => 1]⟩

theorem mpo5_valid : mpo5.Valid := ⟨by simp [mpo5], 2, 2, 1, rfl, 1, 1, 1, rfl, rfl⟩

noncomputable def b5 : TT ℝ := ⟨[ND.ofFn [1, 2, 1] fun i => i.getD 1 0 + 1, ND.ofFn [1, 1, 1] fun _ => 1]⟩

theorem b5_valid : b5.Valid := ⟨by simp [b5], 2, 1, rfl, 1, 1, rfl, rfl⟩

noncomputable def args5 : GmresArgs := { A := ⟨[2, 1], [2, 1], [.mpo mpo5]⟩, b := b5, maxRank := .int 1, method := .exact }

theorem args5_ok : args5.Ok la2Choice where
  op := by
    refine (C54_new _).1 [2, 1] [2, 1] (by simp [args5]) fun l hl => ?_
    simp only [args5, List.mem_cons, List.not_mem_nil, or_false] at hl
    subst hl
    exact ⟨rfl, rfl⟩
  maps := by
    intro l hl
    simp only [args5, List.mem_cons, List.not_mem_nil, or_false] at hl
    subst hl
    exact mpo5_valid
  ranks := by
    intro A hA r hr
    simp only [args5, List.mem_cons, List.not_mem_nil, or_false] at hA
    injection hA with hA
    subst hA
    have : r ∈ [1] := hr
    simp at this
    omega
  inShape := rfl
  outShape := rfl
  b := ⟨b5_valid, by simp [args5, b5, TT.Pos, TT.shape, TT.rank, ND.dim]⟩
  modes := show 2 ≤ b5.shape.length by decide
  x0 := by intro x hx; cases hx
  precond := by intro P hP; cases hP
  maxRank := ⟨show (askedRanks b5.shape (.int 1)).length + 1 = b5.shape.length by decide,
    show ∀ r ∈ askedRanks b5.shape (.int 1), 0 < r by decide⟩
  lastRank := ⟨show (askedRanks b5.shape (.int 1)).length + 1 = b5.shape.length by decide,
    show ∀ r ∈ askedRanks b5.shape (.int 1), 0 < r by decide⟩
  method := Or.inl rfl
  lastMethod := Or.inl rfl

theorem args5_lossless : args5.Lossless (fun _ => env8) la2Choice := by
  intro k ts h
  exact ⟨fun eps Y hY => thin_lossless (n := 2) laChoice_qr laChoice_svd h _ (rk_ok args5_ok) eps hY,
    fun Y hY => thin_lossless (n := 2) laChoice_qr laChoice_svd h _ args5_ok.lastRank none hY⟩

theorem mpo5_entry (j k : ℕ) (hj : j < 2) (hk : k < 2) : mpo5.toNumpy.get (interleave [j, 0] [k, 0])
    = if j = 0 ∧ k = 0 then 2 else if j = 0 ∧ k = 1 then 1 else if j = 1 ∧ k = 1 then 3 else 0 := by
  rw [MPO.toNumpy_get mpo5_valid rfl rfl]
  have d3 : (ND.ofFn [1, 2, 2, 1] fun i : List ℕ => (if i = [0, 0, 0, 0] then 2 else if i = [0, 0, 1, 0] then 1 else
    if i = [0, 1, 1, 0] then 3 else 0 : ℝ)).dim 3 = 1 := rfl
  have d3' : (ND.ofFn [1, 1, 1, 1] fun _ : List ℕ => (1 : ℝ)).dim 3 = 1 := rfl
  simp only [MPO.entry, mpo5, mpoVal, d3, d3', sum_range_one, if_true, mul_one]
  rw [ND.ofFn_get (by simp [hj, hk]), ND.ofFn_get (by simp)]
  simp

theorem args5_image {f g : List ℕ → ℝ} (h : args5.Image f g) : g [0, 0] = 2 * f [0, 0] ∧ g [1, 0] = f [0, 0] + 3 * f [1, 0] := by
  obtain ⟨u, ⟨G, h1, h2⟩, h3⟩ := h
  have h3 : ∀ k, InR [2, 1] k → g k = u k := h3
  have h2 : ∀ k, InR [2, 1] k → u k = (([.mpo mpo5] : List LinMap).map fun m => G m k).sum := h2
  have h1 : ∀ k, InR [2, 1] k → G (.mpo mpo5) k = sumIdx [2, 1] fun j => mpo5.toNumpy.get (interleave j k) * f j :=
    h1 (.mpo mpo5) (by simp [args5])
  have e : ∀ k < 2, g [k, 0] = mpo5.toNumpy.get (interleave [0, 0] [k, 0]) * f [0, 0]
      + mpo5.toNumpy.get (interleave [1, 0] [k, 0]) * f [1, 0] := by
    intro k hk
    have hin : InR [2, 1] [k, 0] := ⟨hk, by omega, trivial⟩
    rw [h3 _ hin, h2 _ hin]
    simp only [List.map_cons, List.map_nil, List.sum_cons, List.sum_nil, add_zero]
    rw [h1 _ hin]
    simp [sumIdx, sum_range_succ]
  refine ⟨?_, ?_⟩
  · rw [e 0 (by omega), mpo5_entry 0 0 (by omega) (by omega), mpo5_entry 1 0 (by omega) (by omega)]; simp
  · rw [e 1 (by omega), mpo5_entry 0 1 (by omega) (by omega), mpo5_entry 1 1 (by omega) (by omega)]; simp

theorem b5_get (i : ℕ) (hi : i < 2) : b5.toNumpy.get [i, 0] = i + 1 := by
  rw [TT.toNumpy_get b5_valid]
  have d2 : (ND.ofFn [1, 2, 1] fun i : List ℕ => ((i.getD 1 0 : ℕ) : ℝ) + 1).dim 2 = 1 := rfl
  have d2' : (ND.ofFn [1, 1, 1] fun _ : List ℕ => (1 : ℝ)).dim 2 = 1 := rfl
  simp only [ttEntry, b5, ttVal, d2, d2', sum_range_one, if_true, mul_one]
  rw [ND.ofFn_get (by simp [hi]), ND.ofFn_get (by simp)]
  simp

/-- All hypotheses of `C57_converges` hold for a system with a nonsymmetric matrix. -/
theorem args5_run (clock : ℕ → ℝ) : ∃ out, gmres (fun _ => env8) la2Choice clock args5 = .ok out ∧
    (∀ c ∈ out.calls, c.Exact) ∧ ∀ bp g, PrecMaps args5.precond args5.b.shape args5.b.toNumpy.get bp →
        args5.Image out.x.toNumpy.get g →
        fnorm args5.b.shape (fun i => bp i - g i) ^ 2 < args5.tol * fnorm args5.b.shape args5.b.toNumpy.get := by
  suffices h : args5.Injective ∧ (args5.symmetric = true → args5.SelfAdjoint) ∧
      (∃ i, InR args5.b.shape i ∧ args5.b.toNumpy.get i ≠ 0) ∧ ¬ args5.Solves args5.guess ∧ 0 < args5.tol ∧
      0 < args5.maxiter by
    obtain ⟨out, h1, h2, -, h3⟩ := C57_converges (clock := clock) gmresEnv8 args5_ok args5_lossless h.1 h.2.1 h.2.2.1
      h.2.2.2.1 h.2.2.2.2.1 h.2.2.2.2.2
    exact ⟨out, h1, h2, h3 (show b5.shape.prod ≤ 100 by decide)⟩
  refine ⟨?_, ?_, ?_, ?_, ?_, ?_⟩
  · intro f hf i hi
    obtain ⟨e1, e2⟩ := args5_image hf
    have hi : InR [2, 1] i := hi
    obtain ⟨i0, i1, rfl⟩ : ∃ i0 i1, i = [i0, i1] := by
      have := hi.length
      match i, this with
      | [x, y], _ => exact ⟨x, y, rfl⟩
    obtain ⟨q1, q2, -⟩ := hi
    obtain rfl : i1 = 0 := by omega
    have e1 : (0 : ℝ) = 2 * f [0, 0] := e1
    have e2 : (0 : ℝ) = f [0, 0] + 3 * f [1, 0] := e2
    obtain rfl | rfl : i0 = 0 ∨ i0 = 1 := by omega
    · linarith
    · linarith
  · intro h; cases h
  · refine ⟨[0, 0], by show InR [2, 1] [0, 0]; simp, ?_⟩
    show b5.toNumpy.get [0, 0] ≠ 0
    rw [b5_get 0 (by omega)]; norm_num
  · rintro ⟨bp, h1, h2⟩
    have h1 : ∀ k, InR [2, 1] k → bp k = b5.toNumpy.get k := h1
    have := (args5_image h2).1
    rw [h1 [0, 0] (by simp), b5_get 0 (by omega)] at this
    have h0 : args5.guess [0, 0] = 0 := rfl
    rw [h0] at this
    norm_num at this
  · show (0 : ℝ) < 1 / 10 ^ 6; norm_num
  · show 0 < 100; omega

/-- The solution of that system. -/
noncomputable def x5 : TT ℝ := ⟨[ND.ofFn [1, 2, 1] fun _ => 1 / 2, ND.ofFn [1, 1, 1] fun _ => 1]⟩

theorem x5_valid : x5.Valid := ⟨by simp [x5], 2, 1, rfl, 1, 1, rfl, rfl⟩

theorem x5_get (i : ℕ) (hi : i < 2) : x5.toNumpy.get [i, 0] = 1 / 2 := by
  rw [TT.toNumpy_get x5_valid]
  have d2 : (ND.ofFn [1, 2, 1] fun _ : List ℕ => (1 / 2 : ℝ)).dim 2 = 1 := rfl
  have d2' : (ND.ofFn [1, 1, 1] fun _ : List ℕ => (1 : ℝ)).dim 2 = 1 := rfl
  simp only [ttEntry, x5, ttVal, d2, d2', sum_range_one, if_true, mul_one]
  rw [ND.ofFn_get (by simp [hi]), ND.ofFn_get (by simp)]
  simp

/-- `C57_solved` applies when GMRES is started with that solution. -/
example (clock : ℕ → ℝ) : gmres (fun _ => env8) la2Choice clock { args5 with x0 := some x5 } = .error .nonFinite := by
  have ok : GmresArgs.Ok la2Choice { args5 with x0 := some x5 } :=
    ⟨args5_ok.op, args5_ok.maps, args5_ok.ranks, rfl, rfl, args5_ok.b, args5_ok.modes, by
      intro x hx
      injection hx with hx
      subst hx
      exact ⟨x5_valid, by simp [x5, TT.Pos, TT.shape, TT.rank, ND.dim], rfl⟩, args5_ok.precond, args5_ok.maxRank,
      args5_ok.lastRank, args5_ok.method, args5_ok.lastMethod⟩
  refine C57_solved gmresEnv8 ok args5_lossless ?_ (show 0 < 100 by omega)
  obtain ⟨g, hg, -⟩ := (C57_image gmresEnv8 ok x5.toNumpy.get).1
  refine ⟨g, fun k hk => ?_, hg⟩
  obtain ⟨e1, e2⟩ := args5_image (f := x5.toNumpy.get) (g := g) hg
  have hk : InR [2, 1] k := hk
  obtain ⟨k0, k1, rfl⟩ : ∃ i0 i1, k = [i0, i1] := by
    have := hk.length
    match k, this with
    | [x, y], _ => exact ⟨x, y, rfl⟩
  obtain ⟨q1, q2, -⟩ := hk
  obtain rfl : k1 = 0 := by omega
  show g [k0, 0] = b5.toNumpy.get [k0, 0]
  rw [b5_get k0 q1]
  rw [x5_get 0 (by omega)] at e1 e2
  rw [x5_get 1 (by omega)] at e2
  obtain rfl | rfl : k0 = 0 ∨ k0 = 1 := by omega
  · rw [e1]; norm_num
  · rw [e2]; norm_num

/-- A right hand side of the wrong shape is rejected (`C58_reject`). -/
example (env : ℕ → Env ℝ) (la : LinAlg2) (clock : ℕ → ℝ) :
    gmres env la clock { args5 with b := x9 } = .error .valueError :=
  C58_reject env la clock _ (Or.inl (by show x9.shape ≠ [2, 1]; decide))

end TTS.Props
