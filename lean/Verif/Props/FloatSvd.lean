import Verif.Proofs.FloatSvd
import Verif.Props.ApproxSvd
import Verif.Props.FloatOrth

/-!
# C106: `tt_svd` in floating point arithmetic

The singular value decomposition is backward stable with relative error `ε`; the products of singular values and vectors, and the
conversion of the argument to an array, are rounded with relative error `u`.
-/

namespace TTS.Props

open Finset TTS.Spec

theorem matricize_first {A : ND ℝ} {n m : ℕ} {shape : List ℕ} (hsh : A.shape = n :: m :: shape) :
    (A.reshape (1 :: n :: m :: shape)).matricize [0, 1] true = A.matricize [0] false := by
  have h1 := matricize_range_true (A.reshape (1 :: n :: m :: shape)) 2 (by simp)
  have h2 := matricize_range_false A 1 (by rw [hsh]; simp)
  rw [show [0, 1] = List.range 2 from rfl, show [0] = List.range 1 from rfl, h1, h2, hsh]
  have e1 : (List.take 2 (A.reshape (1 :: n :: m :: shape)).shape).prod = n := by
    show (List.take 2 (1 :: n :: m :: shape)).prod = n; simp
  have e2 : (List.drop 2 (A.reshape (1 :: n :: m :: shape)).shape).prod = (m :: shape).prod := rfl
  have e3 : List.take 1 (n :: m :: shape) ++ [(List.drop 1 (n :: m :: shape)).prod] = [n, (m :: shape).prod] := rfl
  rw [e1, e2, e3]
  refine ND.ext' rfl fun i hi => ?_
  match i, hi with
  | [x, y], hi =>
    have hi' : InR [n, (m :: shape).prod] [x, y] := hi
    have hx : x < n := hi'.1
    have hy : y < (m :: shape).prod := hi'.2.1
    have f1 := ND.reshape_mat_unravel (A := A) (s := [n]) (t := m :: shape) hsh (x := x) (y := y) (by simpa using hx) hy
    have f2 := ND.reshape_mat_unravel (A := A.reshape (1 :: n :: m :: shape)) (s := [1, n]) (t := m :: shape) rfl
      (x := x) (y := y) (by simpa using hx) hy
    rw [show ([n] : List ℕ).prod = n by simp] at f1
    rw [show ([1, n] : List ℕ).prod = n by simp] at f2
    rw [f1, f2]
    have u1 : unravel [1, n] x = 0 :: unravel [n] x := by
      have : x / n = 0 := Nat.div_eq_of_lt hx
      simp [unravel, this, Nat.mod_eq_of_lt hx]
    rw [u1, List.cons_append, ← hsh, ND.reshape_add_one rfl]

theorem flTtSvd_loop {u : ℝ} {la : LinAlg} {A : ND ℝ} (hd : 2 ≤ A.shape.length) (rank : Option RankArg) (ranks : List ℕ)
    (hr : processTTRank (rank.getD (.seq (List.replicate (A.shape.length - 1) A.shape.prod))) A.shape true = .ok ranks)
    (hl : ranks.length + 1 = A.shape.length) {res : Except PyErr (TT ℝ)} (h : FlTtSvd u la A rank res) :
    ∃ cs, FlTtSvdLoop u la (A.reshape (1 :: A.shape)) 1 A.shape ranks cs ∧ res = cs.map TT.mk := by
  unfold FlTtSvd at h
  rw [hr] at h
  dsimp only at h
  match hsh : A.shape, ranks, hd, hl with
  | n :: m :: shape, k :: ranks, _, _ =>
    rw [hsh] at h
    obtain ⟨W, hW, h⟩ := h
    rw [← matricize_first hsh] at hW h
    generalize hUSV : la.svdThin ((A.reshape (1 :: n :: m :: shape)).matricize [0, 1] true) = USV at hW h
    cases hc : (USV.1.cols 0 (max (min (USV.1.dim 1) k) 1)).reshape? [1, n, max (min (USV.1.dim 1) k) 1] with
    | error e =>
      rw [hc] at h
      refine ⟨.error e, ⟨W, ?_⟩, h⟩
      rw [hUSV]; dsimp only; rw [hc]; exact ⟨hW, rfl⟩
    | ok core =>
      rw [hc] at h
      dsimp only at h
      cases hw : W.reshape? (max (min (USV.1.dim 1) k) 1 :: m :: shape) with
      | error e =>
        rw [hw] at h
        refine ⟨.error e, ⟨W, ?_⟩, h⟩
        rw [hUSV]; dsimp only; rw [hc]; dsimp only; rw [hw]; exact ⟨hW, rfl⟩
      | ok A' =>
        rw [hw] at h
        obtain ⟨rest, h1, h2⟩ := h
        refine ⟨rest.map fun cs => core :: cs, ⟨W, ?_⟩, ?_⟩
        · rw [hUSV]; dsimp only; rw [hc]; dsimp only; rw [hw]; exact ⟨hW, rest, h1, rfl⟩
        · rw [h2]; cases rest <;> rfl

/-- **C106.** Let `np.linalg.svd` be backward stable with relative error `ε`, and let the products `np.diag(S) @ V` be rounded with
relative error `u` per elementary operation.  Then for every nonempty array with `d ≥ 2` modes and every acceptable `rank`, with no
trimmed rank above `R`, every run of `tt_svd` returns a tensor train of the same shape and of the ranks it has in exact arithmetic,
whose cores but the last are left-orthogonal up to `2ε + ε²`, at the distance of C92 with `ρ = ε + (1 + ε) ((1+u)^R - 1)` in place
of `ε`. -/
theorem C106 {u ε ρ : ℝ} {R : ℕ} (hu : 0 ≤ u) (hε : 0 ≤ ε) {la : LinAlg} (hs : la.SVDThinApprox ε) (A : ND ℝ)
    (hd : 2 ≤ A.shape.length) (hpos : ∀ n ∈ A.shape, 0 < n) (rank : Option RankArg)
    (hl : (svdRanks A.shape rank).length + 1 = A.shape.length) (hR1 : 1 ≤ R)
    (hR : ∀ k ∈ trimRanks A.shape (svdRanks A.shape rank), k ≤ R) (hρ : ρ = ε + (1 + ε) * flErr u R)
    {res : Except PyErr (TT ℝ)} (hres : FlTtSvd u la A rank res) :
    ∃ Y, res = .ok Y ∧ Y.Valid ∧ Y.shape = A.shape ∧
      (∀ C ∈ Y.cores.dropLast, C.NearLeftOrthogonal (2 * ε + ε ^ 2)) ∧
      (∀ k < A.shape.length - 1, 1 ≤ Y.rank.getD k 0 ∧
        Y.rank.getD k 0 ≤ max 1 ((trimRanks A.shape (svdRanks A.shape rank)).getD k 0)) ∧
      frobN Y.toNumpy ≤ (1 + ρ) ^ (3 * (A.shape.length - 1)) * frobN A ∧
      ∀ Z : TT ℝ, Z.Valid → Z.shape = A.shape → RanksLe Z.rank (svdRanks A.shape rank) →
        frobD A Y.toNumpy ≤ √ ((A.shape.length - 1 : ℕ) : ℝ) * frobD A Z.toNumpy
          + (A.shape.length - 1 : ℕ) * (4 + 2 * √ ((A.shape.length - 1 : ℕ) : ℝ)) * ρ
            * (1 + ρ) ^ (3 * (A.shape.length - 1)) * frobN A := by
  have htl := trimRanks_length A.shape _ hl
  have hr : processTTRank (rank.getD (.seq (List.replicate (A.shape.length - 1) A.shape.prod))) A.shape true
      = .ok (trimRanks A.shape (svdRanks A.shape rank)) := by
    rw [process_asked]
    have : askedRanks A.shape (rank.getD (.seq (List.replicate (A.shape.length - 1) A.shape.prod)))
        = svdRanks A.shape rank := by cases rank <;> rfl
    rw [this, if_pos hl]
  obtain ⟨cs', hcs, rfl⟩ := flTtSvd_loop hd rank _ hr (by omega) hres
  obtain ⟨cs, rfl, c2, c3, c4, c6, c7, c8⟩ := flTtSvdLoop_approx hu hε hR1 hρ hs A.shape (A.reshape (1 :: A.shape)) 1
    (trimRanks A.shape (svdRanks A.shape rank)) rfl one_pos hpos (by omega) hR _ hcs
  have hne : cs ≠ [] := by intro h; rw [h] at c3; rw [← c3] at hd; simp [coreShape] at hd
  have hv : (TT.mk cs).Valid := ⟨hne, c2⟩
  have hrk := bonds_rank hv
  have hrl := rank_length hv
  have hsh : (TT.mk cs).shape = A.shape := c3
  rw [hsh] at hrl
  have hN : (trimRanks A.shape (svdRanks A.shape rank)).length = A.shape.length - 1 := by omega
  rw [hN] at c7 c8
  have ea : dL 1 A.shape (entL (A.reshape (1 :: A.shape))) zL = frobN A := by
    rw [dL_ent_zero rfl]; unfold frobN; rw [normSq_reshape' (by simp)]
  have ey : dL 1 A.shape (fun x p => ttVal cs p x 0) zL = frobN (TT.mk cs).toNumpy := by
    unfold dL distL frobN normSq
    rw [sum_range_one, TT.toNumpy_shape hv, hsh]
    congr 1
    exact sumIdx_congr fun p _ => by rw [TT.toNumpy_get hv]; simp only [zL, sub_zero]; rfl
  have ed : ∀ F : List ℕ → ℝ, dL 1 A.shape (entL (A.reshape (1 :: A.shape))) (fun _ p => F p)
      = √ (sumIdx A.shape fun p => (A.get p - F p) ^ 2) := by
    intro F
    unfold dL
    rw [distL_one A rfl]
  refine ⟨⟨cs⟩, rfl, hv, hsh, c4, ?_, by rw [← ey, ← ea]; exact c7, ?_⟩
  · intro k hk
    have e : (TT.mk cs).rank.getD k 0 = bnd cs 1 (k + 1) := by
      have : bnd cs 1 (k + 1) = (bonds (TT.mk cs).rank).getD (k + 1) 0 := by rw [hrk]; rfl
      rw [this]
      unfold bonds
      rw [List.getD_cons_succ, List.getD_append _ _ _ _ (by omega)]
    rw [e]
    exact c6 k (by omega)
  · intro Z hZ hZs hZr
    obtain ⟨Z', z1, z2, z3, z4⟩ := C04 Z hZ _ hZr
    have h := c8 (fun _ p => Z'.toNumpy.get p) (by
      intro mu hmu
      obtain ⟨f, g, hfg⟩ := splits_tt z1 (mu := mu) (by rw [z3, hZs, htl]; omega)
      rw [z3, z2, hZs] at hfg
      refine ⟨fun _ p a => f p a, fun q a => g q 0 a, fun x _ p q hp hpq => ?_⟩
      have := hfg p q 0 hp hpq one_pos
      simpa using this)
    rw [ea, ed, z4] at h
    have e0 : dL 1 A.shape (entL (A.reshape (1 :: A.shape))) (fun x p => ttVal cs p x 0)
        = frobD A (TT.mk cs).toNumpy := by
      rw [dL_congr (G' := fun _ p => ttVal cs p 0 0) (fun _ _ _ _ => rfl) (fun x hx p _ => by
        rw [show x = 0 by omega]), ed]
      unfold frobD distSq
      congr 1
      exact sumIdx_congr fun p _ => by rw [TT.toNumpy_get hv]; rfl
    rw [e0] at h
    exact h

/-- **C106, representable arrays.** The rounding errors are all there is if the array has the requested ranks, in particular if no
rank is given. -/
theorem C106_exact {u ε ρ : ℝ} {R : ℕ} (hu : 0 ≤ u) (hε : 0 ≤ ε) {la : LinAlg} (hs : la.SVDThinApprox ε) (A : ND ℝ)
    (hd : 2 ≤ A.shape.length) (hpos : ∀ n ∈ A.shape, 0 < n) (rank : Option RankArg)
    (hl : (svdRanks A.shape rank).length + 1 = A.shape.length) (hR1 : 1 ≤ R)
    (hR : ∀ k ∈ trimRanks A.shape (svdRanks A.shape rank), k ≤ R) (hρ : ρ = ε + (1 + ε) * flErr u R)
    (hA : rank = none ∨ ∃ Z : TT ℝ, Z.Valid ∧ Z.shape = A.shape ∧ RanksLe Z.rank (svdRanks A.shape rank) ∧ Z.toNumpy = A)
    {res : Except PyErr (TT ℝ)} (hres : FlTtSvd u la A rank res) :
    ∃ Y, res = .ok Y ∧ Y.shape = A.shape ∧
      frobD A Y.toNumpy ≤ (A.shape.length - 1 : ℕ) * (4 + 2 * √ ((A.shape.length - 1 : ℕ) : ℝ)) * ρ
        * (1 + ρ) ^ (3 * (A.shape.length - 1)) * frobN A := by
  have hZ : ∃ Z : TT ℝ, Z.Valid ∧ Z.shape = A.shape ∧ RanksLe Z.rank (svdRanks A.shape rank) ∧ Z.toNumpy = A := by
    rcases hA with rfl | hA
    · obtain ⟨Z, z1, z2⟩ := C49_none laChoice_svdThin A hd hpos
      obtain ⟨Z', _, _, z3, z4, z5, _, z6, _⟩ := C49 laChoice_svdThin A hd hpos none hl
      rw [z1] at z3
      obtain rfl : Z = Z' := by injection z3
      have zl := rank_length z4
      rw [z5] at zl
      refine ⟨Z, z4, z5, ⟨by omega, fun i hi => ?_⟩, z2⟩
      have h1 := (z6 i (by omega)).2
      have h2 := (C02 A.shape _ hl i (by omega)).1
      have h3 : (svdRanks A.shape none).getD i 0 = A.shape.prod := by
        unfold svdRanks
        rw [List.getD_eq_getElem _ _ (by simp; omega)]; simp
      have h4 : 0 < A.shape.prod := prod_pos_of hpos
      have h5 := (C02 A.shape _ hl i (by omega)).2.1
      omega
    · exact hA
  obtain ⟨Z, z1, z2, z3, z4⟩ := hZ
  obtain ⟨Y, y1, -, y3, -, -, -, y7⟩ := C106 hu hε hs A hd hpos rank hl hR1 hR hρ hres
  refine ⟨Y, y1, y3, ?_⟩
  have h := y7 Z z1 z2 z3
  have h0 : frobD A Z.toNumpy = 0 := by
    rw [z4]
    unfold frobD distSq
    rw [sumIdx_eq_zero fun _ _ => by simp, Real.sqrt_zero]
  rw [h0, mul_zero, zero_add] at h
  exact h

/-- **C106, tensors.** The same for a tensor of any format, with the conversion to an array rounded as well: `M` is the norm of the
tensor of absolute values and `η` the rounding error of `to_numpy` (C85). -/
theorem C106_tensor {u ε ρ η M : ℝ} {R : ℕ} (hu : 0 ≤ u) (hε : 0 ≤ ε) {la : LinAlg} (hs : la.SVDThinApprox ε) {X : Tensor ℝ}
    (hX : X.Valid) (hd : 2 ≤ X.shape.length) (hpos : ∀ n ∈ X.shape, 0 < n) (rank : Option RankArg)
    (hl : (svdRanks X.shape rank).length + 1 = X.shape.length) (hR1 : 1 ≤ R)
    (hR : ∀ k ∈ trimRanks X.shape (svdRanks X.shape rank), k ≤ R) (hρ : ρ = ε + (1 + ε) * flErr u R)
    (hη : η = flErr u X.denseRounds) (hM : M = frobN X.abs.toNumpy)
    {res : Except PyErr (TT ℝ)} (hres : X.FlTtSvd u la rank res) :
    ∃ Y, res = .ok Y ∧ Y.Valid ∧ Y.shape = X.shape ∧
      (∀ C ∈ Y.cores.dropLast, C.NearLeftOrthogonal (2 * ε + ε ^ 2)) ∧
      (∀ k < X.shape.length - 1, 1 ≤ Y.rank.getD k 0 ∧
        Y.rank.getD k 0 ≤ max 1 ((trimRanks X.shape (svdRanks X.shape rank)).getD k 0)) ∧
      ∀ Z : TT ℝ, Z.Valid → Z.shape = X.shape → RanksLe Z.rank (svdRanks X.shape rank) →
        frobD X.toNumpy Y.toNumpy ≤ η * M + √ ((X.shape.length - 1 : ℕ) : ℝ) * (frobD X.toNumpy Z.toNumpy + η * M)
          + (X.shape.length - 1 : ℕ) * (4 + 2 * √ ((X.shape.length - 1 : ℕ) : ℝ)) * ρ
            * (1 + ρ) ^ (3 * (X.shape.length - 1)) * (frobN X.toNumpy + η * M) := by
  obtain ⟨A, hA, hres⟩ := hres
  have hn := Tensor.toNumpy_near hu hX hA
  have hXs := Tensor.toNumpy_shape hX
  have hAs : A.shape = X.shape := hn.1.trans hXs
  have hη0 : 0 ≤ η := by rw [hη]; exact sub_nonneg.2 (one_le_pow_u hu _)
  have hdist : frobD X.toNumpy A ≤ η * M := by
    rw [hη, hM]
    exact frobD_of_entries (hη ▸ hη0) hn.2.1 fun i => by rw [abs_sub_comm]; exact (hn.2.2 i).1
  have sA : A.shape = X.toNumpy.shape := hn.1
  rw [← hAs] at hd hpos hl hR ⊢
  obtain ⟨Y, y1, y2, y3, y4, y5, -, y7⟩ := C106 hu hε hs A hd hpos rank hl hR1 hR hρ hres
  refine ⟨Y, y1, y2, y3, y4, y5, fun Z hZ hZs hZr => ?_⟩
  have h := y7 Z hZ hZs hZr
  have hρ0 : 0 ≤ ρ := by
    have : 0 ≤ flErr u R := sub_nonneg.2 (one_le_pow_u hu _)
    rw [hρ]; positivity
  have h1 := frobD_triangle (A := X.toNumpy) (B := A) (C := Y.toNumpy) sA
  have h2 := frobD_triangle (A := A) (B := X.toNumpy) (C := Z.toNumpy) sA.symm
  rw [frobD_symm sA.symm] at h2
  have h3 := frobN_le sA
  have h4 : √ ((A.shape.length - 1 : ℕ) : ℝ) * frobD A Z.toNumpy
      ≤ √ ((A.shape.length - 1 : ℕ) : ℝ) * (frobD X.toNumpy Z.toNumpy + η * M) :=
    mul_le_mul_of_nonneg_left (by linarith) (Real.sqrt_nonneg _)
  have h5 : (A.shape.length - 1 : ℕ) * (4 + 2 * √ ((A.shape.length - 1 : ℕ) : ℝ)) * ρ
      * (1 + ρ) ^ (3 * (A.shape.length - 1)) * frobN A
      ≤ (A.shape.length - 1 : ℕ) * (4 + 2 * √ ((A.shape.length - 1 : ℕ) : ℝ)) * ρ
      * (1 + ρ) ^ (3 * (A.shape.length - 1)) * (frobN X.toNumpy + η * M) :=
    mul_le_mul_of_nonneg_left (by linarith) (by positivity)
  linarith

theorem flTtSvdLoop_exact {u : ℝ} (hu : 0 ≤ u) (la : LinAlg) : ∀ (sh : List ℕ) (A : ND ℝ) (r : ℕ) (ranks : List ℕ),
    FlTtSvdLoop u la A r sh ranks ((ttSvdLoop la A r sh ranks).map Prod.fst)
  | [], _, _, _ => rfl
  | [n], A, r, ranks => by
    rw [FlTtSvdLoop, ttSvdLoop]
    cases ttSvdLast A r n <;> rfl
  | n :: m :: sh, A, r, [] => rfl
  | n :: m :: sh, A, r, k :: ranks => by
    rw [FlTtSvdLoop, ttSvdLoop]
    generalize la.svdThin (A.matricize [0, 1] true) = USV
    dsimp only
    generalize max (min (USV.1.dim 1) k) 1 = r'
    refine ⟨_, FlMatmul.exact hu _ _, ?_⟩
    cases (USV.1.cols 0 r').reshape? [r, n, r'] with
    | error e => rfl
    | ok core =>
      dsimp only
      cases ((ND.diag (USV.2.1.take r')).matmul (USV.2.2.rows 0 r')).reshape? (r' :: m :: sh) with
      | error e => rfl
      | ok A' =>
        refine ⟨_, flTtSvdLoop_exact hu la (m :: sh) A' r' ranks, ?_⟩
        dsimp only
        cases ttSvdLoop la A' r' (m :: sh) ranks <;> rfl

/-- **C106, the routines of the code.** Exact arithmetic is one of the runs, for every unit roundoff. -/
theorem C106_runs {u : ℝ} (hu : 0 ≤ u) (la : LinAlg) (A : ND ℝ) (rank : Option RankArg) :
    FlTtSvd u la A rank (ttSvd la A rank) := by
  unfold FlTtSvd ttSvd ttSvdTrace
  generalize processTTRank (rank.getD (.seq (List.replicate (A.shape.length - 1) A.shape.prod))) A.shape true = q
  cases q with
  | error e => rfl
  | ok ranks =>
    dsimp only
    generalize A.shape = sh
    match sh, ranks with
    | [], _ => rfl
    | [_], _ => rfl
    | _ :: _ :: _, [] => rfl
    | n :: m :: shape, k :: ranks =>
      dsimp only
      generalize la.svdThin (A.matricize [0] false) = USV
      generalize max (min (USV.1.dim 1) k) 1 = r'
      refine ⟨_, FlMatmul.exact hu _ _, ?_⟩
      cases (USV.1.cols 0 r').reshape? [1, n, r'] with
      | error e => rfl
      | ok core =>
        dsimp only
        cases ((ND.diag (USV.2.1.take r')).matmul (USV.2.2.rows 0 r')).reshape? (r' :: m :: shape) with
        | error e => rfl
        | ok A' =>
          refine ⟨_, flTtSvdLoop_exact hu la (m :: shape) A' r' ranks, ?_⟩
          dsimp only
          cases ttSvdLoop la A' r' (m :: shape) ranks <;> rfl

/-- the `2 × 3 × 2` array of C92 and a routine with relative error `10⁻¹⁵`; a unit roundoff of `10⁻¹⁶` -/
example : (badSvd (1 / 10 ^ 15)).SVDThinApprox (1 / 10 ^ 15) ∧ 2 ≤ y9.shape.length ∧ (∀ n ∈ y9.shape, 0 < n) ∧
    (svdRanks y9.shape (some (.int 2))).length + 1 = y9.shape.length ∧
    (∀ k ∈ trimRanks y9.shape (svdRanks y9.shape (some (.int 2))), k ≤ 2) ∧
    FlTtSvd (1 / 10 ^ 16) (badSvd (1 / 10 ^ 15)) y9 (some (.int 2)) (ttSvd (badSvd (1 / 10 ^ 15)) y9 (some (.int 2))) :=
  ⟨badSvd_approx (by norm_num) (by norm_num), by decide, by decide, rfl, by decide, C106_runs (by norm_num) _ _ _⟩

end TTS.Props
