import Verif.Proofs.ApproxOrth
import Verif.Props.Norm
import Verif.Props.ApproxSvd

/-!
# C93: orthogonalisation and norm with an inexact QR factorisation
-/

namespace TTS.Props

open Finset TTS.Spec

theorem dL_tt {X Y : TT ℝ} (hX : X.Valid) (hY : Y.Valid) : dL 1 X.shape (valL X.cores) (valL Y.cores)
    = frobD X.toNumpy Y.toNumpy := by
  unfold dL distL frobD distSq
  rw [sum_range_one, TT.toNumpy_shape hX]
  congr 1
  exact sumIdx_congr fun p _ => by rw [TT.toNumpy_get hX, TT.toNumpy_get hY]; rfl

theorem dL_tt_zero {X : TT ℝ} (hX : X.Valid) : dL 1 X.shape (valL X.cores) zL = frobN X.toNumpy := by
  unfold dL distL frobN normSq
  rw [sum_range_one, TT.toNumpy_shape hX]
  congr 1
  exact sumIdx_congr fun p _ => by rw [TT.toNumpy_get hX]; simp only [zL, sub_zero]; rfl

/-- Columns near an orthonormal family. -/
theorem near_orth {n k : ℕ} {ι : Type*} {J : Finset ι} {f g : ℕ → ι → ℝ} {ε : ℝ} (hε : 0 ≤ ε) (hg : Orthn J k g)
    (h : ∀ s < k, √ (∑ j ∈ J, (f s j - g s j) ^ 2) ≤ ε) (s : ℕ) (hs : s < k) (t : ℕ) (ht : t < k) :
    |∑ j ∈ J, f s j * f t j - if s = t then 1 else 0| ≤ 2 * ε + ε ^ 2 := by
  have ho := hg s hs t ht
  have one : ∀ s < k, √ (∑ j ∈ J, g s j ^ 2) = 1 := by
    intro s hs
    have := hg s hs s hs
    rw [if_pos rfl] at this
    simp only [sq]
    rw [this, Real.sqrt_one]
  have cs : ∀ f g : ι → ℝ, |∑ j ∈ J, f j * g j| ≤ √ (∑ j ∈ J, f j ^ 2) * √ (∑ j ∈ J, g j ^ 2) := by
    intro f g
    refine abs_le.2 ⟨?_, Real.sum_mul_le_sqrt_mul_sqrt _ f g⟩
    have := Real.sum_mul_le_sqrt_mul_sqrt J (fun j => - f j) g
    simp only [neg_mul, sum_neg_distrib, neg_sq] at this
    linarith
  have e : ∑ j ∈ J, f s j * f t j - (if s = t then 1 else 0)
      = (∑ j ∈ J, (f s j - g s j) * g t j + ∑ j ∈ J, g s j * (f t j - g t j))
        + ∑ j ∈ J, (f s j - g s j) * (f t j - g t j) := by
    rw [← ho, ← sum_sub_distrib, ← sum_add_distrib, ← sum_add_distrib]
    exact sum_congr rfl fun j _ => by ring
  rw [e]
  have c1 := cs (fun j => f s j - g s j) (g t)
  have c2 := cs (g s) (fun j => f t j - g t j)
  have c3 := cs (fun j => f s j - g s j) (fun j => f t j - g t j)
  rw [one t ht, mul_one] at c1
  rw [one s hs, one_mul] at c2
  have c4 := mul_le_mul (h s hs) (h t ht) (Real.sqrt_nonneg _) hε
  have d1 := h s hs
  have d2 := h t ht
  have a1 := abs_add_le (∑ j ∈ J, (f s j - g s j) * g t j + ∑ j ∈ J, g s j * (f t j - g t j))
    (∑ j ∈ J, (f s j - g s j) * (f t j - g t j))
  have a2 := abs_add_le (∑ j ∈ J, (f s j - g s j) * g t j) (∑ j ∈ J, g s j * (f t j - g t j))
  nlinarith

theorem partner_near {ε : ℝ} (hε : 0 ≤ ε) {O P : ND ℝ} {a n k : ℕ} (hO : O.shape = [a, n, k]) (h : Partner ε O P) :
    O.NearLeftOrthogonal (2 * ε + ε ^ 2) := by
  obtain ⟨h1, h2, h3⟩ := h
  obtain ⟨d0, d1, d2⟩ := dim_of_shape3 hO
  obtain ⟨e0, e1, e2⟩ := dim_of_shape3 (h1.trans hO)
  intro s hs t ht
  rw [d2] at hs ht
  rw [d0, d1]
  have hg : Orthn (range a ×ˢ range n) k fun t j => P.get [j.1, j.2, t] := by
    intro s hs t ht
    have := h3 s (by rw [e2]; exact hs) t (by rw [e2]; exact ht)
    rw [e0, e1] at this
    rw [sum_product]; exact this
  have hall : ∑ i ∈ range a, ∑ j ∈ range n, ∑ z ∈ range k, (O.get [i, j, z] - P.get [i, j, z]) ^ 2 ≤ ε ^ 2 := by
    have h4 : frobD O P ^ 2 ≤ ε ^ 2 := pow_le_pow_left₀ (frobD_nonneg _ _) h2 2
    unfold frobD at h4
    rw [Real.sq_sqrt (distSq_nonneg _ _)] at h4
    unfold distSq at h4
    rw [hO] at h4
    exact h4
  have := near_orth (n := n) hε hg (f := fun t j => O.get [j.1, j.2, t]) (fun s hs => by
    refine (Real.sqrt_le_left hε).2 (le_trans ?_ hall)
    rw [sum_product]
    refine sum_le_sum fun i _ => sum_le_sum fun j _ => ?_
    exact single_le_sum (f := fun z => (O.get [i, j, z] - P.get [i, j, z]) ^ 2) (fun _ _ => sq_nonneg _) (mem_range.2 hs)) s hs t ht
  rw [sum_product] at this
  exact this

/-- The computed train `O`, and the train `P` with exactly orthogonal cores and the same last core. -/
theorem orth_approx {la : LinAlg} {ε : ℝ} (hε : 0 ≤ ε) (hq : la.QRApprox ε) {X : TT ℝ} (hX : X.Valid) (hp : X.Pos) :
    ∃ (O P : TT ℝ) (L : ND ℝ), X.orthogonalize la = .ok O ∧ O.Valid ∧ P.Valid ∧ O.shape = X.shape ∧ P.shape = X.shape ∧
      O.cores = O.cores.dropLast ++ [L] ∧ P.cores = P.cores.dropLast ++ [L] ∧
      List.Forall₂ (Partner ε) O.cores.dropLast P.cores.dropLast ∧
      (∀ k < X.rank.length, O.rank.getD k 0 = min ((1 :: O.rank).getD k 0 * X.shape.getD k 0) (X.rank.getD k 0)) ∧
      frobN L ≤ (1 + ε) ^ (X.shape.length - 1) * X.coreNorms ∧
      frobD X.toNumpy P.toNumpy ≤ (X.shape.length - 1 : ℕ) * ε * (1 + ε) ^ (X.shape.length - 1) * X.coreNorms ∧
      frobN O.toNumpy ≤ (1 + ε) ^ (2 * (X.shape.length - 1)) * X.coreNorms ∧
      frobD X.toNumpy O.toNumpy ≤ 2 * (X.shape.length - 1 : ℕ) * ε * (1 + ε) ^ (2 * (X.shape.length - 1)) * X.coreNorms := by
  obtain ⟨cores⟩ := X
  obtain ⟨hne, hch⟩ := hX
  match cores, hne, hch with
  | C :: Cs, _, ⟨n, t, hC, hCs⟩ =>
  obtain ⟨p1, p2⟩ := hp
  have hn : 0 < n := p1 n (by simp [TT.shape, (dim_of_shape3 hC).2.1])
  obtain ⟨Os, Ps, L, o1, o2, o3, o4, o5, o6, o7, o8, o9, o10, o11, o12⟩ := orthLoop_approx hε hq Cs C 1 n t hC hCs one_pos hn
    (fun D hD => ⟨p2 _ (List.mem_map.2 ⟨D, hD, rfl⟩), p1 _ (List.mem_map.2 ⟨D, List.mem_cons_of_mem _ hD, rfl⟩)⟩)
  have hOv : (TT.mk (Os ++ [L])).Valid := ⟨by simp, o2⟩
  have hPv : (TT.mk (Ps ++ [L])).Valid := ⟨by simp, o3⟩
  have hXv : (TT.mk (C :: Cs)).Valid := ⟨by simp, n, t, hC, hCs⟩
  have hN : (TT.mk (C :: Cs)).shape.length - 1 = Cs.length := by simp [TT.shape]
  rw [hN]
  have rk : ∀ (l : List (ND ℝ)) (k : ℕ), k + 1 < l.length → (TT.mk l).rank.getD k 0 = bondOf l (k + 1) := by
    intro l k hk
    unfold TT.rank bondOf
    rw [getD_map_lt _ _ k (by simp; omega) (ND.zeros []), List.getD_eq_getElem?_getD, List.getElem?_tail,
      ← List.getD_eq_getElem?_getD]
  have b0 : bondOf (Os ++ [L]) 0 = 1 := by
    match Os, o2 with
    | [], ⟨_, _, hO, _⟩ => exact (dim_of_shape3 hO).1
    | O :: Os, ⟨_, _, hO, _⟩ => exact (dim_of_shape3 hO).1
  have hol : (Os ++ [L]).length = Cs.length + 1 := by simp [o7]
  refine ⟨⟨Os ++ [L]⟩, ⟨Ps ++ [L]⟩, L, by unfold TT.orthogonalize; rw [o1]; rfl, hOv, hPv, o4, o5, ?_, ?_, ?_, ?_, o9, ?_, ?_, ?_⟩
  · simp
  · simp
  · simpa using o6
  · intro k hk
    have hk : k < Cs.length := by simpa [TT.rank] using hk
    rw [rk _ _ (by omega), rk _ _ (by simpa using hk), o8 k hk]
    have : (1 :: (TT.mk (Os ++ [L])).rank).getD k 0 = bondOf (Os ++ [L]) k := by
      cases k with
      | zero => rw [b0]; rfl
      | succ k => rw [List.getD_cons_succ, rk _ _ (by omega)]
    rw [this]; rfl
  · rw [← dL_tt hXv hPv]; exact o10
  · rw [← dL_tt_zero hOv]
    have : (TT.mk (Os ++ [L])).shape = (TT.mk (C :: Cs)).shape := o4
    rw [this]; exact o11
  · rw [← dL_tt hXv hOv]; exact o12

theorem partner_exists {ε : ℝ} : ∀ {Os Ps : List (ND ℝ)}, List.Forall₂ (Partner ε) Os Ps → ∀ C ∈ Os, ∃ P, Partner ε C P
  | _, _, .nil, _, h => by cases h
  | _, _, .cons h hs, C, hC => by
    rcases List.mem_cons.1 hC with rfl | hC
    exacts [⟨_, h⟩, partner_exists hs C hC]

/-- **C93.** If the QR routine is backward stable with relative error `ε`, then `orthogonalize` returns, for every tensor train
with `d` positive sizes and positive ranks, a tensor train of the same shape and of the ranks it has in exact arithmetic, whose
cores but the last are left-orthogonal up to `2ε + ε²`, and whose distance from the argument is at most
`2 (d-1) ε (1+ε)^(2(d-1))` times the product of the norms of the argument's cores. -/
theorem C93 {la : LinAlg} {ε : ℝ} (hε : 0 ≤ ε) (hq : la.QRApprox ε) {X : TT ℝ} (hX : X.Valid) (hp : X.Pos) :
    ∃ O, X.orthogonalize la = .ok O ∧ O.Valid ∧ O.shape = X.shape ∧
      (∀ k < X.rank.length, O.rank.getD k 0 = min ((1 :: O.rank).getD k 0 * X.shape.getD k 0) (X.rank.getD k 0)) ∧
      (∀ C ∈ O.cores.dropLast, C.NearLeftOrthogonal (2 * ε + ε ^ 2)) ∧
      frobD X.toNumpy O.toNumpy
        ≤ 2 * (X.shape.length - 1 : ℕ) * ε * (1 + ε) ^ (2 * (X.shape.length - 1)) * X.coreNorms := by
  obtain ⟨O, P, L, o1, o2, -, o3, -, -, -, o4, o5, -, -, -, o6⟩ := orth_approx hε hq hX hp
  refine ⟨O, o1, o2, o3, o5, fun C hC => ?_, o6⟩
  have hdim : ∀ {Cs : List (ND ℝ)} {r s : ℕ}, TTChain r Cs s → ∀ C ∈ Cs, ∃ a n k, C.shape = [a, n, k] := by
    intro Cs
    induction Cs with
    | nil => intro r s _ C hC; cases hC
    | cons D Ds ih =>
      intro r s h C hC
      obtain ⟨n, t, hD, hDs⟩ := h
      rcases List.mem_cons.1 hC with rfl | hC
      · exact ⟨_, _, _, hD⟩
      · exact ih hDs C hC
  obtain ⟨a, n, k, hs⟩ := hdim o2.2 C (List.dropLast_subset _ hC)
  obtain ⟨P', hP'⟩ := partner_exists o4 C hC
  exact partner_near hε hs hP'

theorem partner_orth {ε : ℝ} : ∀ {Os Ps : List (ND ℝ)}, List.Forall₂ (Partner ε) Os Ps → ∀ C ∈ Ps, C.LeftOrthogonal
  | _, _, .nil, _, h => by cases h
  | _, _, .cons h hs, C, hC => by
    rcases List.mem_cons.1 hC with rfl | hC
    exacts [h.2.2, partner_orth hs C hC]

theorem frobN_sub {A B : ND ℝ} (hB : B.shape = A.shape) : |frobN B - frobN A| ≤ frobD A B := by
  refine abs_le.2 ⟨?_, ?_⟩
  · have := frobN_le (A := B) (B := A) hB.symm
    rw [frobD_symm hB]; linarith
  · have := frobN_le (A := A) (B := B) hB
    linarith

/-- **C93, norms.** `X.norm()` is the Frobenius norm of `X.to_numpy()` up to `(d-1) ε (1+ε)^(d-1)` times the product of the
norms of the cores. -/
theorem C93_norm {la : LinAlg} {ε : ℝ} (hε : 0 ≤ ε) (hq : la.QRApprox ε) {X : TT ℝ} (hX : X.Valid) (hp : X.Pos) :
    ∃ v, X.norm la = .ok v ∧
      |v - frobN X.toNumpy| ≤ (X.shape.length - 1 : ℕ) * ε * (1 + ε) ^ (X.shape.length - 1) * X.coreNorms := by
  obtain ⟨O, P, L, o1, o2, o3, o4, o5, o6, o7, o8, -, -, o9, -⟩ := orth_approx hε hq hX hp
  refine ⟨frobN L, ?_, ?_⟩
  · unfold TT.norm
    rw [o1]
    show Except.ok (ND.frob (O.cores.getLastD _)) = _
    rw [o6, List.getLastD_concat]; rfl
  · have e : frobN L = frobN P.toNumpy := by
      have := orth_norm o3 (partner_orth o8)
      rw [o7, List.getLastD_concat] at this
      unfold frobN; rw [this]
    rw [e]
    exact (frobN_sub (by rw [TT.toNumpy_shape o3, TT.toNumpy_shape hX, o5])).trans o9

/-- **C93, one core.** Nothing is factorised: the norm of a vector is exact. -/
theorem C93_vector {la : LinAlg} {ε : ℝ} (hε : 0 ≤ ε) (hq : la.QRApprox ε) {X : TT ℝ} (hX : X.Valid) (hp : X.Pos)
    (h1 : X.shape.length = 1) : X.norm la = .ok (frobN X.toNumpy) ∧ ∃ O, X.orthogonalize la = .ok O ∧ O.toNumpy = X.toNumpy := by
  obtain ⟨v, v1, v2⟩ := C93_norm hε hq hX hp
  rw [h1] at v2
  have : v = frobN X.toNumpy := by
    have := abs_nonpos_iff.1 (v2.trans (by simp)); linarith
  refine ⟨by rw [v1, this], ?_⟩
  obtain ⟨cores⟩ := X
  match cores, hX, h1 with
  | [C], _, _ => exact ⟨⟨[C]⟩, rfl, rfl⟩

/-! ### An inexact routine -/

/-- Every exact routine is an inexact one. -/
theorem approxQr_of_exact {la : LinAlg} (hs : la.QROk) {ε : ℝ} (hε : 0 ≤ ε) : la.QRApprox ε := by
  intro M m n hM
  have h := hs M m n hM
  refine ⟨h.shapeQ, M, _, hM, h, ?_, ?_⟩
  · rw [frobD_self]; exact mul_nonneg hε (frobN_nonneg _)
  · rw [frobD_self]; exact hε

/-- the array with its first entry scaled -/
noncomputable def scaleFirst (ε : ℝ) (M : ND ℝ) : ND ℝ := ND.ofFn M.shape fun i => M.get i + if i = [0, 0] then ε * M.get i else 0

/-- the array with its first entry moved -/
noncomputable def moveFirst (ε : ℝ) (M : ND ℝ) : ND ℝ := ND.ofFn M.shape fun i => M.get i + if i = [0, 0] then ε else 0

theorem moveFirst_dist {ε : ℝ} (hε : 0 ≤ ε) (M : ND ℝ) : frobD (moveFirst ε M) M ≤ ε := by
  refine (Real.sqrt_le_left hε).2 ?_
  have e : distSq (moveFirst ε M) M = sumIdx M.shape fun i => if i = [0, 0] then ε ^ 2 else 0 := by
    unfold distSq
    show sumIdx M.shape _ = _
    refine sumIdx_congr fun i hi => ?_
    unfold moveFirst
    rw [ND.ofFn_get hi]
    split_ifs <;> ring
  rw [e]
  by_cases hz : InR M.shape [0, 0]
  · rw [sumIdx_ite_eq hz]
  · rw [sumIdx_eq_zero fun i hi => if_neg fun (h : i = [0, 0]) => hz (by rw [← h]; exact hi)]
    exact sq_nonneg _

theorem scaleFirst_dist {ε : ℝ} (hε : 0 ≤ ε) (M : ND ℝ) : frobD M (scaleFirst ε M) ≤ ε * frobN M := by
  have h : distSq M (scaleFirst ε M) ≤ ε ^ 2 * normSq M := by
    unfold distSq normSq
    rw [sumIdx_eq_sum, sumIdx_eq_sum, mul_sum]
    refine sum_le_sum fun i hi => ?_
    unfold scaleFirst
    rw [ND.ofFn_get (mem_idxSet.1 hi)]
    split_ifs
    · exact le_of_eq (by ring)
    · nlinarith [mul_nonneg (sq_nonneg ε) (sq_nonneg (M.get i))]
  unfold frobD frobN
  calc √ (distSq M (scaleFirst ε M)) ≤ √ (ε ^ 2 * normSq M) := Real.sqrt_le_sqrt h
    _ = _ := by rw [Real.sqrt_mul (sq_nonneg _), Real.sqrt_sq hε]

/-- a factorisation of the matrix with its first entry scaled by `1 + ε`, and with the first entry of `Q` off by `ε` -/
noncomputable def badQr (ε : ℝ) : LinAlg :=
  { laChoice with qr := fun M =>
      (moveFirst ε (laChoice.qr (scaleFirst ε M)).1, (laChoice.qr (scaleFirst ε M)).2) }

theorem badQr_approx {ε : ℝ} (h0 : 0 ≤ ε) : (badQr ε).QRApprox ε := by
  intro M m n hM
  have h := laChoice_qr (scaleFirst ε M) m n hM
  exact ⟨h.shapeQ, scaleFirst ε M, _, hM, h, scaleFirst_dist h0 M, moveFirst_dist h0 _⟩

example : (badQr (1 / 10 ^ 15)).QRApprox (1 / 10 ^ 15) ∧ x9.Valid ∧ x9.Pos :=
  ⟨badQr_approx (by norm_num), x9_valid, x9_pos⟩

/-- a vector, as the one-core train of C93_vector -/
example : ∃ X : TT ℝ, X.Valid ∧ X.Pos ∧ X.shape.length = 1 :=
  ⟨⟨[ND.ofFn [1, 3, 1] fun i => i.getD 1 0]⟩, ⟨by simp, 3, 1, rfl, rfl⟩, by simp [TT.Pos, TT.shape, TT.rank, ND.dim], rfl⟩

/-- the difference of two equal `1 × 1` trains, as `X - X` builds it -/
def cancelTT : TT ℝ := ⟨[ND.ofFn [1, 1, 2] fun _ => 1, ND.ofFn [2, 1, 1] fun i => if i.getD 0 0 = 0 then 1 else -1]⟩

/-- **C93, cancellation.** The product of the norms of the cores cannot be replaced by the norm of the tensor: a backward stable
routine may return a positive norm for a train that represents zero. -/
theorem C93_cancellation {ε : ℝ} (h0 : 0 ≤ ε) : (badQr ε).QRApprox ε ∧ cancelTT.Valid ∧ cancelTT.Pos ∧
    frobN cancelTT.toNumpy = 0 ∧ cancelTT.norm (badQr ε) = .ok ε := by
  have hv : cancelTT.Valid := ⟨by simp [cancelTT], 1, 2, rfl, 1, 1, rfl, rfl⟩
  have c1 : ∀ j < 2, (ND.ofFn [1, 1, 2] fun _ => (1 : ℝ)).get [0, 0, j] = 1 := fun j hj => by
    rw [ND.ofFn_get (s := [1, 1, 2]) (i := [0, 0, j]) ⟨one_pos, one_pos, hj, trivial⟩]
  have c2 : ∀ j < 2, (ND.ofFn [2, 1, 1] fun i => if i.getD 0 0 = 0 then (1 : ℝ) else -1).get [j, 0, 0]
      = if j = 0 then 1 else -1 := fun j hj => by
    rw [ND.ofFn_get (s := [2, 1, 1]) (i := [j, 0, 0]) ⟨hj, one_pos, one_pos, trivial⟩]; rfl
  refine ⟨badQr_approx h0, hv, by simp [TT.Pos, cancelTT, TT.shape, TT.rank, ND.dim], ?_, ?_⟩
  · have hz : normSq cancelTT.toNumpy = 0 := by
      unfold normSq
      rw [TT.toNumpy_shape hv]
      show ∑ i ∈ range 1, ∑ j ∈ range 1, _ = _
      rw [sum_range_one, sum_range_one]
      show cancelTT.toNumpy.get [0, 0] ^ 2 = 0
      rw [TT.toNumpy_get hv]
      have : ttEntry cancelTT [0, 0] = 0 := by
        show ttVal cancelTT.cores [0, 0] 0 0 = 0
        show ttVal (_ :: _) (0 :: [0]) 0 0 = 0
        rw [ttVal_cons (r := 1) (n := 1) (t := 2) rfl, sum_range_succ, sum_range_one, c1 0 (by norm_num), c1 1 (by norm_num),
          ttVal_cons (r := 2) (n := 1) (t := 1) rfl, ttVal_cons (r := 2) (n := 1) (t := 1) rfl, sum_range_one, sum_range_one,
          c2 0 (by norm_num), c2 1 (by norm_num)]
        norm_num
      rw [this]; norm_num
    unfold frobN; rw [hz, Real.sqrt_zero]
  · obtain ⟨M, hM⟩ : ∃ M, M = (ND.ofFn [1, 1, 2] fun _ => (1 : ℝ)).reshape [1, 2] := ⟨_, rfl⟩
    have hMs : (scaleFirst ε M).shape = [1, 2] := by rw [hM]; rfl
    have h := laChoice_qr (scaleFirst ε M) 1 2 hMs
    generalize hQR : laChoice.qr (scaleFirst ε M) = QR at h
    obtain ⟨Q, R⟩ := QR
    dsimp only at h
    have hm : ∀ j < 2, (scaleFirst ε M).get [0, j] = if j = 0 then 1 + ε else 1 := by
      intro j hj
      have e : M.get [0, j] = 1 := by
        rw [hM]
        have := ND.reshape_merge12 (A := ND.ofFn [1, 1, 2] fun _ => (1 : ℝ)) (a := 1) (b := 1) (c := 2) rfl 0 0 j one_pos
        rw [show ((ND.ofFn [1, 1, 2] fun _ => (1 : ℝ)).reshape [1, 2]).get [0, j] = 1 from this.trans (c1 j hj)]
      unfold scaleFirst
      rw [ND.ofFn_get (by rw [hM]; exact ⟨one_pos, hj, trivial⟩), e]
      interval_cases j <;> simp
    have hR : R.shape = [1, 2] := h.shapeR
    have h00 := h.mul 0 one_pos 0 (by norm_num)
    have h01 := h.mul 0 one_pos 1 (by norm_num)
    have hqq := h.orth 0 (by norm_num) 0 (by norm_num)
    simp only [show min 1 2 = 1 from rfl, sum_range_one] at h00 h01 hqq
    rw [hm 0 (by norm_num)] at h00
    rw [hm 1 (by norm_num)] at h01
    simp only [if_pos, one_ne_zero, if_false] at h00 h01 hqq
    obtain ⟨L, hL⟩ : ∃ L, L = ND.es_ij_jkl_ikl R (ND.ofFn [2, 1, 1] fun i => if i.getD 0 0 = 0 then (1 : ℝ) else -1) := ⟨_, rfl⟩
    have hLs : L.shape = [1, 1, 1] := by rw [hL]; exact ND.es_ij_jkl_ikl_shape hR (nj' := 2) rfl
    have hLv : L.get [0, 0, 0] = R.get [0, 0] - R.get [0, 1] := by
      rw [hL, ND.es_ij_jkl_ikl_get hR (nj' := 2) (nk := 1) (nl := 1) rfl, sum_range_succ, sum_range_one, c2 0 (by norm_num), c2 1 (by norm_num)]
      norm_num; ring
    have hsq : (R.get [0, 0] - R.get [0, 1]) ^ 2 = ε ^ 2 := by
      have e1 : Q.get [0, 0] * (R.get [0, 0] - R.get [0, 1]) = ε := by rw [mul_sub, h00, h01]; ring
      calc _ = (Q.get [0, 0] * Q.get [0, 0]) * (R.get [0, 0] - R.get [0, 1]) ^ 2 := by rw [hqq, one_mul]
        _ = (Q.get [0, 0] * (R.get [0, 0] - R.get [0, 1])) ^ 2 := by ring
        _ = _ := by rw [e1]
    have hfr : ND.frob L = ε := by
      unfold ND.frob
      have : sumIdx L.shape (fun i => L.get i ^ 2) = ε ^ 2 := by
        rw [hLs]
        show ∑ i ∈ range 1, ∑ j ∈ range 1, ∑ k ∈ range 1, _ = _
        rw [sum_range_one, sum_range_one, sum_range_one]
        show L.get [0, 0, 0] ^ 2 = _
        rw [hLv, hsq]
      rw [this, Real.sqrt_sq h0]
    have hrun : TT.orthLoop (badQr ε) none cancelTT.cores = .ok [(moveFirst ε Q).reshape [1, 1, 1], L] := by
      have hb : (badQr ε).qr M = (moveFirst ε Q, R) := by
        show (moveFirst ε (laChoice.qr (scaleFirst ε M)).1, (laChoice.qr (scaleFirst ε M)).2) = _
        rw [hQR]
      have hre : ND.reshapeInfer (moveFirst ε Q) 1 1 = .ok ((moveFirst ε Q).reshape [1, 1, 1]) := by
        have hsz : (moveFirst ε Q).size = 1 := by
          show Q.shape.prod = 1
          rw [h.shapeQ]; rfl
        unfold ND.reshapeInfer
        rw [hsz]; rfl
      show TT.orthLoop (badQr ε) none [ND.ofFn [1, 1, 2] fun _ => (1 : ℝ), ND.ofFn [2, 1, 1] fun i => if i.getD 0 0 = 0 then (1 : ℝ) else -1] = _
      rw [TT.orthLoop]
      rw [show (ND.ofFn [1, 1, 2] fun _ => (1 : ℝ)).dim 0 * (ND.ofFn [1, 1, 2] fun _ => (1 : ℝ)).dim 1 = 1 from rfl,
        show (ND.ofFn [1, 1, 2] fun _ => (1 : ℝ)).dim 2 = 2 from rfl, show (ND.ofFn [1, 1, 2] fun _ => (1 : ℝ)).dim 0 = 1 from rfl,
        show (ND.ofFn [1, 1, 2] fun _ => (1 : ℝ)).dim 1 = 1 from rfl]
      rw [← hM, hb]
      dsimp only
      rw [hre]
      dsimp only
      rw [hL]; rfl
    unfold TT.norm TT.orthogonalize
    rw [hrun]
    show Except.ok (ND.frob L) = _
    rw [hfr]

end TTS.Props
