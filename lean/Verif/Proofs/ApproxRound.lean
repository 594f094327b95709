import Verif.Proofs.ApproxOrth
import Verif.Proofs.RoundOpt

/-! Rounding with inexact singular value decompositions. -/

namespace TTS

open Finset

/-- Distance of two functions of the modes and one more index. -/
noncomputable def d2 (sh : List ℕ) (s : ℕ) (F G : List ℕ → ℕ → ℝ) : ℝ := √ (dist2 sh s F G)

/-- the zero function -/
def z2 : List ℕ → ℕ → ℝ := fun _ _ => 0

theorem d2_eq (sh : List ℕ) (s : ℕ) (F G : List ℕ → ℕ → ℝ) : d2 sh s F G = dL s sh (fun y p => F p y) (fun y p => G p y) := rfl

theorem d2_nonneg (sh : List ℕ) (s : ℕ) (F G : List ℕ → ℕ → ℝ) : 0 ≤ d2 sh s F G := Real.sqrt_nonneg _

theorem d2_sq (sh : List ℕ) (s : ℕ) (F G : List ℕ → ℕ → ℝ) : d2 sh s F G ^ 2 = dist2 sh s F G :=
  dL_sq s sh (fun y p => F p y) (fun y p => G p y)

theorem d2_triangle (sh : List ℕ) (s : ℕ) (F G H : List ℕ → ℕ → ℝ) : d2 sh s F H ≤ d2 sh s F G + d2 sh s G H :=
  dL_triangle s sh (fun y p => F p y) (fun y p => G p y) (fun y p => H p y)

theorem d2_symm (sh : List ℕ) (s : ℕ) (F G : List ℕ → ℕ → ℝ) : d2 sh s F G = d2 sh s G F :=
  dL_symm s sh (fun y p => F p y) (fun y p => G p y)

theorem d2_congr {sh : List ℕ} {s : ℕ} {F F' G G' : List ℕ → ℕ → ℝ} (h : ∀ p, InR sh p → ∀ y < s, F p y = F' p y)
    (h' : ∀ p, InR sh p → ∀ y < s, G p y = G' p y) : d2 sh s F G = d2 sh s F' G' :=
  dL_congr (fun y hy p hp => h p hp y hy) (fun y hy p hp => h' p hp y hy)

/-- A core applied to the partial products before it. -/
noncomputable def appR (V : ND ℝ) (k : ℕ) (T : List ℕ → ℕ → ℝ) (p : List ℕ) (y : ℕ) : ℝ :=
  ∑ t ∈ range k, T p.dropLast t * V.get [t, p.getLastD 0, y]

theorem appR_concat (V : ND ℝ) (k : ℕ) (T : List ℕ → ℕ → ℝ) (p : List ℕ) (i y : ℕ) :
    appR V k T (p ++ [i]) y = ∑ t ∈ range k, T p t * V.get [t, i, y] := by
  unfold appR
  rw [List.dropLast_concat, List.getLastD_concat]

theorem dist2_swap (sh : List ℕ) (s : ℕ) (F G : List ℕ → ℕ → ℝ) :
    dist2 sh s F G = ∑ p ∈ idxSet sh, ∑ y ∈ range s, (F p y - G p y) ^ 2 := by
  unfold dist2
  simp only [sumIdx_eq_sum]
  rw [sum_comm]

theorem dist2_cons {C : ND ℝ} {Cs : List (ND ℝ)} {r n s : ℕ} (hC : C.shape = [r, n, s]) (F G : List ℕ → ℕ → ℝ) :
    dist2 (coreShape (C :: Cs)).reverse s F G = ∑ p ∈ idxSet (coreShape Cs).reverse, ∑ i ∈ range n, ∑ y ∈ range s,
      (F (p ++ [i]) y - G (p ++ [i]) y) ^ 2 := sum_rev_cons hC _

theorem frob3 {A B : ND ℝ} {a b c : ℕ} (h : A.shape = [a, b, c]) :
    frobD A B ^ 2 = ∑ i ∈ range a, ∑ j ∈ range b, ∑ k ∈ range c, (A.get [i, j, k] - B.get [i, j, k]) ^ 2 := by
  unfold frobD
  rw [Real.sq_sqrt (by unfold distSq; rw [sumIdx_eq_sum]; exact sum_nonneg fun _ _ => sq_nonneg _)]
  unfold distSq
  rw [h]; rfl

theorem frobD_zeros (A : ND ℝ) (s : List ℕ) : frobD A (ND.zeros s) = frobN A := by
  unfold frobD frobN distSq normSq
  congr 1
  exact sumIdx_congr fun i _ => by rw [ND.zeros_get, sub_zero]

theorem appR_diff {C : ND ℝ} {Cs : List (ND ℝ)} {r n s k : ℕ} (hC : C.shape = [r, n, s]) {V V' : ND ℝ} (hV : V.shape = [k, n, s])
    (T : List ℕ → ℕ → ℝ) : d2 (coreShape (C :: Cs)).reverse s (appR V k T) (appR V' k T)
      ≤ frobD V V' * d2 (coreShape Cs).reverse k T z2 := by
  refine (Real.sqrt_le_left (mul_nonneg (frobD_nonneg _ _) (d2_nonneg _ _ _ _))).2 ?_
  rw [mul_pow, d2_sq, frob3 hV, dist2_cons hC, dist2_swap, mul_sum]
  refine sum_le_sum fun p _ => ?_
  have e : ∑ i ∈ range k, ∑ j ∈ range n, ∑ y ∈ range s, (V.get [i, j, y] - V'.get [i, j, y]) ^ 2
      = ∑ j ∈ range n, ∑ y ∈ range s, ∑ i ∈ range k, (V.get [i, j, y] - V'.get [i, j, y]) ^ 2 := by
    rw [sum_comm]
    exact sum_congr rfl fun j _ => sum_comm
  rw [e, sum_mul]
  refine sum_le_sum fun i _ => ?_
  rw [sum_mul]
  refine sum_le_sum fun y _ => ?_
  rw [appR_concat, appR_concat, ← sum_sub_distrib]
  simp only [← mul_sub, z2, sub_zero]
  rw [mul_comm]
  exact sum_mul_sq_le_sq_mul_sq _ _ _

theorem appR_iso {C : ND ℝ} {Cs : List (ND ℝ)} {r n s k : ℕ} (hC : C.shape = [r, n, s]) {V : ND ℝ} (hV : V.shape = [k, n, s])
    (ho : V.RightOrthogonal) (T : List ℕ → ℕ → ℝ) :
    d2 (coreShape (C :: Cs)).reverse s (appR V k T) z2 = d2 (coreShape Cs).reverse k T z2 := by
  unfold d2
  rw [dist2_cons hC, dist2_swap]
  congr 1
  refine sum_congr rfl fun p _ => ?_
  obtain ⟨e0, e1, e2⟩ := dim_of_shape3 hV
  have hg : Orthn (range n ×ˢ range s) k fun t j => V.get [t, j.1, j.2] := by
    intro a ha b hb
    have := ho a (by rw [e0]; exact ha) b (by rw [e0]; exact hb)
    rw [e1, e2] at this
    rw [sum_product]; exact this
  have := hg.parseval fun t => T p t
  rw [sum_product] at this
  simp only [z2, sub_zero]
  rw [← this]
  exact sum_congr rfl fun i _ => sum_congr rfl fun y _ => by rw [appR_concat]

theorem orth_rev {Cs : List (ND ℝ)} {r : ℕ} (hc : TTChain 1 Cs.reverse r) (ho : ∀ E ∈ Cs, E.LeftOrthogonal) :
    Orthn (idxSet (coreShape Cs).reverse) r fun x p => revVal Cs p x := by
  intro x hx y hy
  have := ttVal_gram hc (fun E hE => ho E (List.mem_reverse.1 hE)) x hx y hy
  rw [sum_range_one, show coreShape Cs.reverse = (coreShape Cs).reverse from List.map_reverse,
    sumIdx_eq_sum] at this
  exact this

/-- Left-orthogonal cores keep distances. -/
theorem rev_iso {Cs : List (ND ℝ)} {C C' : ND ℝ} {r n s : ℕ} (hc : TTChain 1 Cs.reverse r) (ho : ∀ E ∈ Cs, E.LeftOrthogonal)
    (hC : C.shape = [r, n, s]) (hC' : C'.shape = [r, n, s]) :
    d2 (coreShape (C :: Cs)).reverse s (revVal (C :: Cs)) (revVal (C' :: Cs)) = frobD C C' := by
  have e : dist2 (coreShape (C :: Cs)).reverse s (revVal (C :: Cs)) (revVal (C' :: Cs)) = frobD C C' ^ 2 := by
    rw [frob3 hC, dist2_cons hC, sum_comm, sum_comm (s := range r)]
    refine sum_congr rfl fun i _ => ?_
    rw [sum_comm, sum_comm (s := range r)]
    refine sum_congr rfl fun y _ => ?_
    rw [← (orth_rev hc ho).parseval fun x => C.get [x, i, y] - C'.get [x, i, y]]
    refine sum_congr rfl fun p hp => ?_
    have hpl : p.length = Cs.length := by rw [(mem_idxSet.1 hp).length, List.length_reverse, coreShape_length]
    rw [revVal_cons hC hc hpl, revVal_cons hC' hc hpl, ← sum_sub_distrib]
    congr 1
    exact sum_congr rfl fun x _ => by ring
  unfold d2
  rw [e, Real.sqrt_sq (frobD_nonneg _ _)]

theorem rev_norm {Cs : List (ND ℝ)} {C : ND ℝ} {r n s : ℕ} (hc : TTChain 1 Cs.reverse r) (ho : ∀ E ∈ Cs, E.LeftOrthogonal)
    (hC : C.shape = [r, n, s]) : d2 (coreShape (C :: Cs)).reverse s (revVal (C :: Cs)) z2 = frobN C := by
  have h := rev_iso hc ho hC (C' := ND.zeros [r, n, s]) rfl
  rw [frobD_zeros] at h
  rw [← h]
  refine d2_congr (fun _ _ _ _ => rfl) fun p hp y hy => ?_
  rw [coreShape_cons, List.reverse_cons] at hp
  have hl : p ≠ [] := by intro h; have := hp.length; rw [h] at this; simp at this
  obtain ⟨p', i, rfl⟩ : ∃ p' i, p = p' ++ [i] := ⟨p.dropLast, p.getLast hl, (List.dropLast_append_getLast hl).symm⟩
  have hpl : p'.length = Cs.length := by
    have := hp.length
    simp [coreShape_length] at this; exact this
  rw [revVal_cons (n := n) (s := s) rfl hc hpl]
  simp [z2, ND.zeros_get]

namespace RoundStep
variable {C D : ND ℝ} {Ds : List (ND ℝ)} {U : ND ℝ} {S : List ℝ} {Vt US V : ND ℝ} {q m r n s k : ℕ}

/-- The error of a step and of the rest are orthogonal. -/
theorem pyth (hst : RoundStep C D Ds U S Vt US V q m r n s k) (T : List ℕ → ℕ → ℝ) :
    dist2 (coreShape (C :: D :: Ds)).reverse s (revVal (C :: D :: Ds)) (appR V k T)
      = ∑ t ∈ Ico k (min r (n * s)), S.getD t 0 ^ 2
        + dist2 (coreShape (D :: Ds)).reverse k (revVal (ND.es_ijk_kl_ijl D US :: Ds)) T := by
  rw [dist2_cons hst.hC, dist2_swap]
  have hkl := hst.kle
  let b : List ℕ → ℕ → ℝ := fun p t =>
    if t < k then revVal (ND.es_ijk_kl_ijl D US :: Ds) p t - T p t
    else RoundStep.left D Ds U r t p * S.getD t 0
  have hdiff : ∀ p ∈ idxSet (coreShape (D :: Ds)).reverse, ∑ i ∈ range n, ∑ y ∈ range s,
      (revVal (C :: D :: Ds) (p ++ [i]) y - appR V k T (p ++ [i]) y) ^ 2
        = ∑ t ∈ range (min r (n * s)), b p t ^ 2 := by
    intro p hp
    have hpl := hst.length_of_mem hp
    rw [← (hst.orthV.mono (min_le_right r (n * s))).parseval, range_mul_sum]
    refine sum_congr rfl fun i hi => sum_congr rfl fun y hy => ?_
    have hi : i < n := by simpa using hi
    have hy : y < s := by simpa using hy
    congr 1
    rw [hst.val hpl hi hy, appR_concat,
      ← sum_range_add_sum_Ico _ hkl, ← sum_range_add_sum_Ico (fun t => b p t * _) hkl, add_sub_right_comm,
      ← sum_sub_distrib]
    congr 1
    · refine sum_congr rfl fun t ht => ?_
      have ht : t < k := by simpa using ht
      show _ = b p t * _
      simp only [b, if_pos ht]
      rw [hst.next hpl ht, hst.hVg t ht i hi y hy]; ring
    · refine sum_congr rfl fun t ht => ?_
      have ht : ¬ t < k := by simp at ht; omega
      show _ = b p t * _
      simp only [b, if_neg ht]
  rw [sum_congr rfl hdiff]
  have hsplit : ∀ p, ∑ t ∈ range (min r (n * s)), b p t ^ 2
      = ∑ t ∈ range k, (revVal (ND.es_ijk_kl_ijl D US :: Ds) p t - T p t) ^ 2
        + ∑ t ∈ Ico k (min r (n * s)), S.getD t 0 ^ 2 * RoundStep.left D Ds U r t p ^ 2 := by
    intro p
    rw [← sum_range_add_sum_Ico _ hkl]
    congr 1
    · exact sum_congr rfl fun t ht => by simp only [b, if_pos (mem_range.1 ht)]
    · refine sum_congr rfl fun t ht => ?_
      have ht : ¬ t < k := by simp at ht; omega
      simp only [b, if_neg ht]; ring
  simp only [hsplit]
  rw [sum_add_distrib, add_comm]
  congr 1
  rw [sum_comm]
  refine sum_congr rfl fun t ht => ?_
  rw [← mul_sum]
  have htr : t < r := by have := (mem_Ico.1 ht).2; omega
  have := hst.orthLeft t htr t htr
  rw [if_pos rfl] at this
  simp only [sq (RoundStep.left D Ds U r t _)]
  rw [this, mul_one]

end RoundStep

/-- A core times a matrix, both perturbed. -/
theorem es_diff {D D' W W' : ND ℝ} {q m r k : ℕ} (hD : D.shape = [q, m, r]) (hD' : D'.shape = [q, m, r]) (hW : W.shape = [r, k])
    (hW' : W'.shape = [r, k]) (ho : D'.LeftOrthogonal) :
    frobD (ND.es_ijk_kl_ijl D W) (ND.es_ijk_kl_ijl D' W') ≤ frobD D D' * frobN W + frobD W W' := by
  have s1 := ND.es_ijk_kl_ijl_shape hD hW
  have s2 := ND.es_ijk_kl_ijl_shape hD' hW
  refine (frobD_triangle (B := ND.es_ijk_kl_ijl D' W) (by rw [s1, s2])).trans (add_le_add ?_ ?_)
  · refine le_of_sq_le_sq ?_ (mul_nonneg (frobD_nonneg _ _) (frobN_nonneg _))
    rw [mul_pow, frob3 s1, frob3 hD, frobN_mat hW, sum_comm (s := range r), sum_mul]
    refine sum_le_sum fun i _ => ?_
    rw [sum_mul]
    refine sum_le_sum fun j _ => ?_
    rw [mul_sum]
    refine sum_le_sum fun t _ => ?_
    rw [ND.es_ijk_kl_ijl_get hD hW, ND.es_ijk_kl_ijl_get hD' hW, ← sum_sub_distrib]
    simp only [← sub_mul]
    exact sum_mul_sq_le_sq_mul_sq _ _ _
  · refine le_of_sq_le_sq ?_ (frobD_nonneg _ _)
    rw [frob3 s2, frobD_mat hW]
    refine le_of_eq ?_
    obtain ⟨e0, e1, e2⟩ := dim_of_shape3 hD'
    have hg : Orthn (range q ×ˢ range m) r fun x j => D'.get [j.1, j.2, x] := by
      intro a ha b hb
      have := ho a (by rw [e2]; exact ha) b (by rw [e2]; exact hb)
      rw [e0, e1] at this
      rw [sum_product]; exact this
    rw [sum_comm (s := range r)]
    have e : ∑ i ∈ range q, ∑ j ∈ range m, ∑ t ∈ range k, ((ND.es_ijk_kl_ijl D' W).get [i, j, t]
        - (ND.es_ijk_kl_ijl D' W').get [i, j, t]) ^ 2
        = ∑ t ∈ range k, ∑ i ∈ range q, ∑ j ∈ range m, ((ND.es_ijk_kl_ijl D' W).get [i, j, t]
        - (ND.es_ijk_kl_ijl D' W').get [i, j, t]) ^ 2 := by
      rw [sum_comm' (s := range k) (t := fun _ => range q) (t' := range q) (s' := fun _ => range k) (by simp)]
      exact sum_congr rfl fun i _ => sum_comm
    rw [e]
    refine sum_congr rfl fun t _ => ?_
    rw [← hg.parseval fun x => W.get [x, t] - W'.get [x, t], sum_product]
    refine sum_congr rfl fun i _ => sum_congr rfl fun j _ => ?_
    rw [ND.es_ijk_kl_ijl_get hD' hW, ND.es_ijk_kl_ijl_get hD' hW', ← sum_sub_distrib]
    congr 1
    exact sum_congr rfl fun x _ => by ring

/-- One step of the rounding sweep, shapes only. -/
theorem roundLoop_step_shapes {la : LinAlg} (eps : ℝ) (mr : List ℕ) {C : ND ℝ} (D : ND ℝ) (Ds : List (ND ℝ))
    {r n s : ℕ} (hC : C.shape = [r, n, s]) (h0 : 0 < r) (h1 : 0 < n) (h2 : 0 < s) {U Vt : ND ℝ} {S : List ℝ}
    (hUSV : la.svd (C.reshape [r, n * s]) = (U, S, Vt)) (hU : U.shape = [r, r]) (hVt : Vt.shape = [n * s, n * s])
    (hSl : S.length = min r (n * s)) :
    ∃ (k : ℕ) (US V : ND ℝ), k = keepRank S eps (mr.getD Ds.length 0) ∧
      1 ≤ k ∧ k ≤ min r (n * s) ∧ US.shape = [r, k] ∧ (∀ x, ∀ t < k, US.get [x, t] = U.get [x, t] * S.getD t 0) ∧
      V.shape = [k, n, s] ∧ (∀ t < k, ∀ i < n, ∀ y < s, V.get [t, i, y] = Vt.get [t, i * s + y]) ∧
      TT.roundLoop la eps mr none (C :: D :: Ds)
        = (TT.roundLoop la eps mr none (ND.es_ijk_kl_ijl D US :: Ds)).map fun o => (V :: o.1, S.drop k :: o.2) := by
  obtain ⟨d0, d1, d2⟩ := dim_of_shape3 hC
  have hmin : 1 ≤ min r (n * s) := le_min h0 (Nat.mul_pos h1 h2)
  obtain ⟨k, hk⟩ : ∃ k, k = keepRank S eps (mr.getD Ds.length 0) := ⟨_, rfl⟩
  have hkl : k ≤ min r (n * s) := by
    rw [hk, ← hSl]; exact keepRank_le _ _ _ (by rw [hSl]; exact hmin)
  have hk1 : 1 ≤ k := by rw [hk]; exact keepRank_pos _ _ _
  have hUc : (U.cols 0 k).shape = [r, k] := by
    rw [ND.cols_shape hU]; congr 2; omega
  have hdiag : (ND.diag (S.take k)).shape = [k, k] := by
    show [(S.take k).length, (S.take k).length] = _
    rw [List.length_take, hSl, min_eq_left hkl]
  have hVr : (Vt.rows 0 k).shape = [k, n * s] := by
    rw [ND.rows_shape hVt]; congr 1; omega
  have hVg : ∀ t < k, ∀ i < n, ∀ y < s, ((Vt.rows 0 k).reshape [k, n, s]).get [t, i, y] = Vt.get [t, i * s + y] := by
    intro t ht i hi y hy
    rw [ND.reshape_split23 hVr t i y hy, ND.rows_get hVt 0 k t _ (by omega), zero_add]
  refine ⟨k, (U.cols 0 k).matmul (ND.diag (S.take k)), (Vt.rows 0 k).reshape [k, n, s], hk, hk1, hkl,
    ND.matmul_shape' hUc hdiag, ?_, rfl, hVg, ?_⟩
  · intro x t ht
    rw [ND.matmul_get hUc hdiag, sum_eq_single t]
    · rw [ND.cols_get hU 0 k x t (by omega), zero_add, ND.diag_get, if_pos rfl]
      congr 1
      rw [List.getD_eq_getElem?_getD, List.getElem?_take, if_pos ht, ← List.getD_eq_getElem?_getD]
    · intro y _ hy; rw [ND.diag_get, if_neg hy, mul_zero]
    · intro h; exact absurd (mem_range.2 ht) h
  · have hSne : S ≠ [] := by intro h; rw [h] at hSl; simp at hSl; omega
    have hre : (Vt.rows 0 k).reshape? [k, n, s] = .ok ((Vt.rows 0 k).reshape [k, n, s]) := by
      unfold ND.reshape?; rw [if_pos (by rw [hVr]; simp)]
    rw [TT.roundLoop]
    rw [d0, d1, d2, hUSV]
    dsimp only
    rw [if_neg hSne, ← hk, hre]
    dsimp only
    rw [roundLoop_some]
    cases TT.roundLoop la eps mr none (ND.es_ijk_kl_ijl D ((U.cols 0 k).matmul (ND.diag (S.take k))) :: Ds) <;> rfl

/-- The inner products of the rows of the right unfolding of a core differ from those of an orthonormal family by at most
`δ`. -/
def RightPartner (ε : ℝ) (V V' : ND ℝ) : Prop := V'.shape = V.shape ∧ frobD V V' ≤ ε ∧ V'.RightOrthogonal

/-- What one inexact rounding step does to norms and distances. -/
structure ApproxRoundStep (ε eps : ℝ) (C : ND ℝ) (D : ND ℝ) (Cs' : List (ND ℝ)) (Ds' : List (ND ℝ)) (US V : ND ℝ)
    (r n s k w : ℕ) : Prop where
  next : frobN (ND.es_ijk_kl_ijl D US) ≤ (1 + ε) ^ 3 * frobN C
  partner : ∃ V', RightPartner ε V V'
  grow : ∀ T, d2 (coreShape (C :: Cs')).reverse s (appR V k T) z2 ≤ (1 + ε) * d2 (coreShape Cs').reverse k T z2
  err : ∀ G, SplitsAt (coreShape (C :: Cs')).reverse s G Ds'.length w → ∃ G',
    (∀ mu v, mu < Cs'.length → SplitsAt (coreShape (C :: Cs')).reverse s G mu v → SplitsAt (coreShape Cs').reverse k G' mu v) ∧
    d2 (coreShape Cs').reverse k (revVal (ND.es_ijk_kl_ijl D US :: Ds')) G'
      ≤ d2 (coreShape (C :: Cs')).reverse s (revVal (C :: Cs')) G + (ε + ε * (1 + ε) * (2 + ε)) * frobN C ∧
    ∀ T, d2 (coreShape (C :: Cs')).reverse s (revVal (C :: Cs')) (appR V k T) ≤ ε * frobN C
      + √ ((d2 (coreShape (C :: Cs')).reverse s (revVal (C :: Cs')) G + ε * frobN C) ^ 2 + w * (eps * ((1 + ε) * frobN C)) ^ 2
        + (d2 (coreShape Cs').reverse k (revVal (ND.es_ijk_kl_ijl D US :: Ds')) T + ε * (1 + ε) * (2 + ε) * frobN C) ^ 2)
      + ε * d2 (coreShape Cs').reverse k T z2

theorem approxRoundStep {ε : ℝ} (hε : 0 ≤ ε) {eps : ℝ} (he : 0 ≤ eps) {C D D' : ND ℝ} {Ds' : List (ND ℝ)} {U Vt US V : ND ℝ} {S : List ℝ}
    {q m r n s k w : ℕ} (hC : C.shape = [r, n, s]) (hD : D.shape = [q, m, r]) (hp : Partner ε D D')
    (hDs' : TTChain 1 Ds'.reverse q) (ho : ∀ E ∈ Ds', E.LeftOrthogonal)
    (h : IsApproxSVD ε (C.reshape [r, n * s]) U S Vt r (n * s) r (n * s)) (hk : k = keepRank S eps w) (hk1 : 1 ≤ k)
    (hkl : k ≤ min r (n * s)) (hUS : US.shape = [r, k]) (hUSg : ∀ x, ∀ t < k, US.get [x, t] = U.get [x, t] * S.getD t 0)
    (hV : V.shape = [k, n, s]) (hVg : ∀ t < k, ∀ i < n, ∀ y < s, V.get [t, i, y] = Vt.get [t, i * s + y]) :
    ApproxRoundStep ε eps C D (D' :: Ds') Ds' US V r n s k w := by
  obtain ⟨hU, hVt, M', U', Vt', hM's, hsvd, e1, e2, e3⟩ := h
  obtain ⟨hp1, hp2, hp3⟩ := hp
  have hD' : D'.shape = [q, m, r] := hp1.trans hD
  obtain ⟨B, hB⟩ : ∃ B, B = M'.reshape [r, n, s] := ⟨_, rfl⟩
  have hpr : ([r, n, s] : List ℕ).prod = M'.shape.prod := by rw [hM's]; simp
  have hBs : B.shape = [r, n, s] := by rw [hB]; rfl
  have hBM : B.reshape [r, n * s] = M' := by
    rw [hB, ND.reshape_reshape hpr (by rw [hM's]), ← hM's, ND.reshape_self]
  rw [← hBM] at hsvd
  have hprC : ([r, n * s] : List ℕ).prod = C.shape.prod := by rw [hC]; simp
  obtain ⟨c, hc⟩ : ∃ c, c = frobN C := ⟨_, rfl⟩
  have hc0 : 0 ≤ c := by rw [hc]; exact frobN_nonneg _
  have hCB : frobD C B ≤ ε * c := by
    have : frobD (C.reshape [r, n * s]) (B.reshape [r, n * s]) = frobD C B := frobD_reshape (by rw [hBs, hC]) hprC
    rw [← this, hBM, hc, ← frobN_reshape hprC]; exact e1
  have hBn : frobN B ≤ (1 + ε) * c := by
    have := frobN_le (A := C) (B := B) (by rw [hBs, hC])
    rw [← hc] at this; linarith
  -- exact step
  obtain ⟨US', hUS'⟩ : ∃ W, W = ND.ofFn [r, k] fun i => U'.get [i.getD 0 0, i.getD 1 0] * S.getD (i.getD 1 0) 0 := ⟨_, rfl⟩
  obtain ⟨V', hV'⟩ : ∃ W, W = ND.ofFn [k, n, s] fun i => Vt'.get [i.getD 0 0, i.getD 1 0 * s + i.getD 2 0] := ⟨_, rfl⟩
  have hUS's : US'.shape = [r, k] := by rw [hUS']; rfl
  have hV's : V'.shape = [k, n, s] := by rw [hV']; rfl
  have hUS'g : ∀ x, ∀ t < k, US'.get [x, t] = U'.get [x, t] * S.getD t 0 := by
    intro x t ht
    by_cases hx : x < r
    · rw [hUS', ND.ofFn_get (s := [r, k]) (i := [x, t]) ⟨hx, ht, trivial⟩]; rfl
    · rw [ND.supp US' _ (fun hi => hx (by rw [hUS's] at hi; exact hi.1)),
        ND.supp U' _ (fun hi => hx (by rw [hsvd.shapeU] at hi; exact hi.1)), zero_mul]
  have hV'g : ∀ t < k, ∀ i < n, ∀ y < s, V'.get [t, i, y] = Vt'.get [t, i * s + y] := by
    intro t ht i hi y hy
    rw [hV', ND.ofFn_get (s := [k, n, s]) (i := [t, i, y]) ⟨ht, hi, hy, trivial⟩]; rfl
  have hoall : ∀ E ∈ D' :: Ds', E.LeftOrthogonal := by
    intro E hE
    rcases List.mem_cons.1 hE with rfl | hE
    exacts [hp3, ho E hE]
  have st : RoundStep B D' Ds' U' S Vt' US' V' q m r n s k :=
    ⟨hBs, hD', hDs', hsvd, hkl, hUS's, hUS'g, hV's, hV'g, hoall⟩
  have hV'o : V'.RightOrthogonal := by
    intro x hx y hy
    obtain ⟨f0, f1, f2⟩ := dim_of_shape3 hV's
    rw [f0] at hx hy
    rw [f1, f2, ← hsvd.orthV x (by omega) y (by omega), range_mul_sum]
    refine sum_congr rfl fun i hi => sum_congr rfl fun b hb => ?_
    rw [hV'g x hx i (by simpa using hi) b (by simpa using hb), hV'g y hy i (by simpa using hi) b (by simpa using hb)]
  -- the singular values
  have hsum := hsvd.sum_sq (min_le_left _ _) (min_le_right _ _)
  rw [hBM, ← frobN_mat hM's] at hsum
  have hM'B : frobN M' = frobN B := by rw [hB, frobN_reshape hpr]
  rw [hM'B] at hsum
  have hS : S.getD 0 0 ≤ (1 + ε) * c := by
    refine (abs_le_of_sq_le_sq' (a := S.getD 0 0) (b := (1 + ε) * c) ?_ (by positivity)).2
    have h2 : S.getD 0 0 ^ 2 ≤ ∑ t ∈ range (min r (n * s)), S.getD t 0 ^ 2 :=
      single_le_sum (f := fun t => S.getD t 0 ^ 2) (fun _ _ => sq_nonneg _) (mem_range.2 (by omega))
    rw [← hsum] at h2
    exact h2.trans (pow_le_pow_left₀ (frobN_nonneg _) hBn 2)
  have hS0 := hsvd.nonneg 0
  have hUSn : frobN US' ≤ (1 + ε) * c := by
    refine le_of_sq_le_sq ?_ (by positivity)
    rw [frobN_mat hUS's, sum_comm]
    have : ∀ t ∈ range k, ∑ x ∈ range r, US'.get [x, t] ^ 2 = S.getD t 0 ^ 2 := by
      intro t ht
      have ht : t < k := by simpa using ht
      have ho := hsvd.orthU t (by omega) t (by omega)
      rw [if_pos rfl] at ho
      have : ∀ x ∈ range r, US'.get [x, t] ^ 2 = S.getD t 0 ^ 2 * (U'.get [x, t] * U'.get [x, t]) := by
        intro x _; rw [hUS'g x t ht]; ring
      rw [sum_congr rfl this, ← mul_sum, ho, mul_one]
    rw [sum_congr rfl this]
    have h3 : ∑ t ∈ range k, S.getD t 0 ^ 2 ≤ ∑ t ∈ range (min r (n * s)), S.getD t 0 ^ 2 :=
      sum_le_sum_of_subset_of_nonneg (range_subset_range.2 hkl) fun _ _ _ => sq_nonneg _
    rw [← hsum] at h3
    exact h3.trans (pow_le_pow_left₀ (frobN_nonneg _) hBn 2)
  have hUSd : frobD US US' ≤ ε * ((1 + ε) * c) := by
    refine le_of_sq_le_sq ?_ (by positivity)
    have h1 : frobD U U' ^ 2 ≤ ε ^ 2 := pow_le_pow_left₀ (frobD_nonneg _ _) e2 2
    rw [frobD_mat hU] at h1
    rw [frobD_mat hUS]
    have h2 : ∑ x ∈ range r, ∑ t ∈ range k, (US.get [x, t] - US'.get [x, t]) ^ 2
        ≤ S.getD 0 0 ^ 2 * ∑ x ∈ range r, ∑ t ∈ range r, (U.get [x, t] - U'.get [x, t]) ^ 2 := by
      rw [mul_sum]
      refine sum_le_sum fun x _ => ?_
      rw [mul_sum]
      refine le_trans (sum_le_sum (g := fun t => S.getD 0 0 ^ 2 * (U.get [x, t] - U'.get [x, t]) ^ 2) fun t ht => ?_)
        (sum_le_sum_of_subset_of_nonneg (range_subset_range.2 (show k ≤ r by omega)) fun _ _ _ => by positivity)
      have ht : t < k := by simpa using ht
      rw [hUSg x t ht, hUS'g x t ht, ← sub_mul, mul_pow, mul_comm]
      exact mul_le_mul_of_nonneg_right (pow_le_pow_left₀ (hsvd.nonneg t) (hsvd.antitone 0 t (Nat.zero_le _)) 2) (sq_nonneg _)
    calc _ ≤ _ := h2
      _ ≤ ((1 + ε) * c) ^ 2 * ε ^ 2 := mul_le_mul (pow_le_pow_left₀ hS0 hS 2) h1
        (sum_nonneg fun _ _ => sum_nonneg fun _ _ => sq_nonneg _) (by positivity)
      _ = _ := by ring
  have hVd : frobD V V' ≤ ε := by
    refine le_of_sq_le_sq ?_ hε
    have h1 : frobD Vt Vt' ^ 2 ≤ ε ^ 2 := pow_le_pow_left₀ (frobD_nonneg _ _) e3 2
    rw [frobD_mat hVt] at h1
    rw [frob3 hV]
    refine le_trans (le_trans (le_of_eq (sum_congr rfl fun t ht => ?_)) (sum_le_sum_of_subset_of_nonneg
      (range_subset_range.2 (show k ≤ n * s by omega)) fun _ _ _ => sum_nonneg fun _ _ => sq_nonneg _)) h1
    have ht : t < k := by simpa using ht
    rw [range_mul_sum]
    refine sum_congr rfl fun i hi => sum_congr rfl fun y hy => ?_
    rw [hVg t ht i (by simpa using hi) y (by simpa using hy), hV'g t ht i (by simpa using hi) y (by simpa using hy)]
  have hUSn' : frobN US ≤ (1 + ε) ^ 2 * c := by
    have := frobN_le (A := US') (B := US) (by rw [hUS, hUS's])
    rw [frobD_symm (by rw [hUS, hUS's])] at this
    nlinarith
  -- next core
  obtain ⟨δ, hδ⟩ : ∃ δ, δ = ε * (1 + ε) * (2 + ε) * c := ⟨_, rfl⟩
  have hEd : frobD (ND.es_ijk_kl_ijl D US) (ND.es_ijk_kl_ijl D' US') ≤ δ := by
    refine (es_diff hD hD' hUS hUS's hp3).trans ?_
    have := mul_le_mul hp2 hUSn' (frobN_nonneg _) hε
    rw [hδ]
    nlinarith
  have sE := ND.es_ijk_kl_ijl_shape hD hUS
  have sE' := ND.es_ijk_kl_ijl_shape hD' hUS's
  have cs0 : coreShape (ND.es_ijk_kl_ijl D' US' :: Ds') = coreShape (D' :: Ds') := st.shapeD'
  have cs1 : coreShape (ND.es_ijk_kl_ijl D US :: Ds') = coreShape (D' :: Ds') := by
    rw [coreShape_cons, coreShape_cons, (dim_of_shape3 sE).2.1, (dim_of_shape3 hD').2.1]
  have cs2 : coreShape (B :: D' :: Ds') = coreShape (C :: D' :: Ds') := by
    rw [coreShape_cons B, coreShape_cons C, (dim_of_shape3 hBs).2.1, (dim_of_shape3 hC).2.1]
  have hch : TTChain 1 (D' :: Ds').reverse r := st.chain
  have hFE : d2 (coreShape (D' :: Ds')).reverse k (revVal (ND.es_ijk_kl_ijl D US :: Ds')) (revVal (ND.es_ijk_kl_ijl D' US' :: Ds')) ≤ δ := by
    rw [← cs1, rev_iso hDs' ho sE sE']; exact hEd
  have hFC : d2 (coreShape (C :: D' :: Ds')).reverse s (revVal (C :: D' :: Ds')) (revVal (B :: D' :: Ds')) ≤ ε * c := by
    rw [rev_iso hch hoall hC hBs]; exact hCB
  have hE'n : frobN (ND.es_ijk_kl_ijl D' US') ≤ (1 + ε) * c := by
    have h1 : d2 (coreShape (ND.es_ijk_kl_ijl D' US' :: Ds')).reverse k (revVal (ND.es_ijk_kl_ijl D' US' :: Ds')) (RoundStep.proj Vt' n s z2)
        ≤ d2 (coreShape (B :: D' :: Ds')).reverse s (revVal (B :: D' :: Ds')) z2 := Real.sqrt_le_sqrt (st.dist_next z2)
    have hz : RoundStep.proj Vt' n s z2 = z2 := by funext p t; simp [RoundStep.proj, z2]
    rw [hz, rev_norm hDs' ho sE', rev_norm hch hoall hBs] at h1
    exact h1.trans hBn
  have happ : ∀ T, d2 (coreShape (C :: D' :: Ds')).reverse s (appR V k T) (appR V' k T)
      ≤ ε * d2 (coreShape (D' :: Ds')).reverse k T z2 := fun T =>
    (appR_diff hC hV T).trans (mul_le_mul_of_nonneg_right hVd (d2_nonneg _ _ _ _))
  rw [hc] at hδ
  refine ⟨?_, ⟨V', by rw [hV's, hV], hVd, hV'o⟩, ?_, ?_⟩
  · have := frobN_le (A := ND.es_ijk_kl_ijl D' US') (B := ND.es_ijk_kl_ijl D US) (by rw [sE, sE'])
    rw [frobD_symm (by rw [sE, sE'])] at this
    rw [← hc] at hδ ⊢
    have e : (1 + ε) ^ 3 * c = (1 + ε) * c + ε * (1 + ε) * (2 + ε) * c := by ring
    rw [e]; linarith
  · intro T
    have h1 := d2_triangle (coreShape (C :: D' :: Ds')).reverse s (appR V k T) (appR V' k T) z2
    rw [appR_iso hC hV's hV'o T] at h1
    have := happ T
    linarith
  · intro G hG
    rw [← cs2] at hG
    refine ⟨RoundStep.proj Vt' n s G, fun mu v hmu hs => st.splits_proj hmu (by rw [cs2]; exact hs), ?_, ?_⟩
    · have h1 := d2_triangle (coreShape (D' :: Ds')).reverse k (revVal (ND.es_ijk_kl_ijl D US :: Ds'))
        (revVal (ND.es_ijk_kl_ijl D' US' :: Ds')) (RoundStep.proj Vt' n s G)
      have h2 : d2 (coreShape (D' :: Ds')).reverse k (revVal (ND.es_ijk_kl_ijl D' US' :: Ds')) (RoundStep.proj Vt' n s G)
          ≤ d2 (coreShape (C :: D' :: Ds')).reverse s (revVal (B :: D' :: Ds')) G := by
        rw [← cs0, ← cs2]
        exact Real.sqrt_le_sqrt (st.dist_next G)
      have h3 := d2_triangle (coreShape (C :: D' :: Ds')).reverse s (revVal (B :: D' :: Ds')) (revVal (C :: D' :: Ds')) G
      rw [d2_symm _ _ (revVal (B :: D' :: Ds')) (revVal (C :: D' :: Ds'))] at h3
      rw [← hc] at hδ ⊢
      have e : (ε + ε * (1 + ε) * (2 + ε)) * c = ε * c + δ := by rw [hδ]; ring
      rw [e]
      linarith
    · intro T
      have h1 := d2_triangle (coreShape (C :: D' :: Ds')).reverse s (revVal (C :: D' :: Ds')) (revVal (B :: D' :: Ds')) (appR V k T)
      have h2 := d2_triangle (coreShape (C :: D' :: Ds')).reverse s (revVal (B :: D' :: Ds')) (appR V' k T) (appR V k T)
      rw [d2_symm _ _ (appR V' k T) (appR V k T)] at h2
      have h3 := happ T
      rw [← hδ, ← hc]
      have h4 : d2 (coreShape (C :: D' :: Ds')).reverse s (revVal (B :: D' :: Ds')) (appR V' k T)
          ≤ √ ((d2 (coreShape (C :: D' :: Ds')).reverse s (revVal (C :: D' :: Ds')) G + ε * c) ^ 2 + w * (eps * ((1 + ε) * c)) ^ 2
            + (d2 (coreShape (D' :: Ds')).reverse k (revVal (ND.es_ijk_kl_ijl D US :: Ds')) T + δ) ^ 2) := by
        refine Real.sqrt_le_sqrt ?_
        rw [← cs2, st.pyth]
        refine add_le_add ?_ ?_
        · have tail := keepRank_tail hsvd eps he w
          rw [← hk] at tail
          refine tail.trans (add_le_add ((st.tail_le hG).trans ?_) ?_)
          · rw [← d2_sq]
            refine pow_le_pow_left₀ (d2_nonneg _ _ _ _) ?_ 2
            rw [cs2]
            have h5 := d2_triangle (coreShape (C :: D' :: Ds')).reverse s (revVal (B :: D' :: Ds')) (revVal (C :: D' :: Ds')) G
            rw [d2_symm _ _ (revVal (B :: D' :: Ds')) (revVal (C :: D' :: Ds'))] at h5
            linarith
          · exact mul_le_mul_of_nonneg_left (pow_le_pow_left₀ (mul_nonneg he hS0) (mul_le_mul_of_nonneg_left hS he) 2)
              (Nat.cast_nonneg _)
        · rw [← d2_sq]
          refine pow_le_pow_left₀ (d2_nonneg _ _ _ _) ?_ 2
          have h5 := d2_triangle (coreShape (D' :: Ds')).reverse k (revVal (ND.es_ijk_kl_ijl D' US' :: Ds'))
            (revVal (ND.es_ijk_kl_ijl D US :: Ds')) T
          rw [d2_symm _ _ (revVal (ND.es_ijk_kl_ijl D' US' :: Ds')) (revVal (ND.es_ijk_kl_ijl D US :: Ds'))] at h5
          linarith
      linarith

/-- The arithmetic of the induction step. -/
theorem round_arith {ε τ x c x' c' y nT A w : ℝ} (hε : 0 ≤ ε) (hτ : 0 ≤ τ) (hx : 0 ≤ x) (hc : 0 ≤ c) (hA : 0 ≤ A) (hw : 0 ≤ w)
    (m : ℕ) (hc' : 0 ≤ c') (hcc : c' ≤ (1 + ε) ^ 3 * c) (hx' : 0 ≤ x') (hxx : x' ≤ x + (ε + ε * (1 + ε) * (2 + ε)) * c)
    (hy : 0 ≤ y) (hyy : y ≤ √ (m * x' ^ 2 + A * (τ * ((1 + ε) ^ (4 * m) * c')) ^ 2)
      + m * (5 + 3 * √ (m : ℝ)) * ε * (1 + ε) ^ (4 * m) * c') (hn : nT ≤ (1 + ε) ^ (4 * m) * c') :
    ε * c + √ ((x + ε * c) ^ 2 + w * (τ * ((1 + ε) * c)) ^ 2 + (y + ε * (1 + ε) * (2 + ε) * c) ^ 2) + ε * nT
      ≤ √ ((m + 1 : ℕ) * x ^ 2 + (A + w) * (τ * ((1 + ε) ^ (4 * (m + 1)) * c)) ^ 2)
        + (m + 1 : ℕ) * (5 + 3 * √ ((m + 1 : ℕ) : ℝ)) * ε * (1 + ε) ^ (4 * (m + 1)) * c := by
  have h1 : 1 ≤ 1 + ε := by linarith
  obtain ⟨g, hg⟩ : ∃ g, g = (1 + ε) ^ (4 * (m + 1)) := ⟨_, rfl⟩
  obtain ⟨g0, hg0⟩ : ∃ g0, g0 = (1 + ε) ^ (4 * m) := ⟨_, rfl⟩
  rw [← hg]
  rw [← hg0] at hyy hn
  have g0pos : 0 ≤ g0 := by rw [hg0]; positivity
  have gpos : 0 ≤ g := by rw [hg]; positivity
  have g1 : 1 ≤ g := by rw [hg]; exact one_le_pow₀ h1
  have ge : 1 + ε ≤ g := by rw [hg]; exact le_self_pow₀ h1 (by omega)
  have g2 : (1 + ε) ^ 2 ≤ g := by rw [hg]; exact pow_le_pow_right₀ h1 (by omega)
  have gc : g0 * c' ≤ g * c := by
    calc g0 * c' ≤ g0 * ((1 + ε) ^ 3 * c) := mul_le_mul_of_nonneg_left hcc g0pos
      _ = (1 + ε) ^ (4 * m + 3) * c := by rw [hg0]; ring
      _ ≤ g * c := mul_le_mul_of_nonneg_right (by rw [hg]; exact pow_le_pow_right₀ h1 (by omega)) hc
  have hgc0 : 0 ≤ g0 * c' := mul_nonneg g0pos hc'
  have hgc : 0 ≤ g * c := mul_nonneg gpos hc
  -- small quantities
  obtain ⟨u, hu⟩ : ∃ u, u = ε * (g * c) := ⟨_, rfl⟩
  have hu0 : 0 ≤ u := by rw [hu]; exact mul_nonneg hε hgc
  have s1 : ε * c ≤ u := by
    rw [hu]; exact mul_le_mul_of_nonneg_left (by nlinarith) hε
  have hεc : 0 ≤ ε * c := mul_nonneg hε hc
  have s2 : ε * (1 + ε) * (2 + ε) * c ≤ 2 * u := by
    have a1 : (1 + ε) * (2 + ε) ≤ 2 * g := by nlinarith
    have := mul_le_mul_of_nonneg_left a1 hεc
    rw [hu]; nlinarith
  have hδ0 : 0 ≤ ε * (1 + ε) * (2 + ε) * c := by positivity
  generalize ε * (1 + ε) * (2 + ε) * c = δ at s2 hδ0
  generalize hv : ε * c = v at s1 hεc
  have hxx2 : x' ≤ x + 3 * u := by
    have : (ε + ε * (1 + ε) * (2 + ε)) * c ≤ 3 * u := by
      have a1 : (1 + ε) * (2 + ε) ≤ 2 * g := by nlinarith
      have := mul_le_mul_of_nonneg_left a1 (mul_nonneg hε hc)
      rw [hu]; nlinarith
    linarith
  obtain ⟨b, hb⟩ : ∃ b, b = τ * (g * c) := ⟨_, rfl⟩
  have hb0 : 0 ≤ b := by rw [hb]; exact mul_nonneg hτ hgc
  rw [← hb]
  obtain ⟨M, hM⟩ : ∃ M : ℝ, M = √ (m : ℝ) := ⟨_, rfl⟩
  have hM0 : 0 ≤ M := by rw [hM]; exact Real.sqrt_nonneg _
  have hM2 : M ^ 2 = m := by rw [hM]; exact Real.sq_sqrt (Nat.cast_nonneg _)
  rw [← hM] at hyy
  obtain ⟨a, ha⟩ : ∃ a : ℝ, a = √ A := ⟨_, rfl⟩
  have ha2 : a ^ 2 = A := by rw [ha]; exact Real.sq_sqrt hA
  -- the rest
  have y1 : √ (m * x' ^ 2 + A * (τ * (g0 * c')) ^ 2) ≤ √ (m * x ^ 2 + A * b ^ 2) + 3 * M * u := by
    have t1 : √ (m * x' ^ 2 + A * (τ * (g0 * c')) ^ 2) ≤ √ ((M * x + M * (3 * u)) ^ 2 + (a * b + 0) ^ 2) := by
      refine Real.sqrt_le_sqrt (add_le_add ?_ ?_)
      · rw [← mul_add, mul_pow, hM2]
        exact mul_le_mul_of_nonneg_left (pow_le_pow_left₀ hx' hxx2 2) (Nat.cast_nonneg _)
      · rw [add_zero, mul_pow a b, ha2]
        refine mul_le_mul_of_nonneg_left (pow_le_pow_left₀ (mul_nonneg hτ hgc0) ?_ 2) hA
        rw [hb]; exact mul_le_mul_of_nonneg_left gc hτ
    refine t1.trans (sqrt_pair.trans (add_le_add (le_of_eq ?_) (le_of_eq ?_)))
    · rw [mul_pow, mul_pow, hM2, ha2]
    · rw [show (M * (3 * u)) ^ 2 + (0 : ℝ) ^ 2 = (M * (3 * u)) ^ 2 by ring, Real.sqrt_sq (by positivity)]; ring
  have y2 : m * (5 + 3 * M) * ε * g0 * c' ≤ m * (5 + 3 * M) * u := by
    have := mul_le_mul_of_nonneg_left gc (show 0 ≤ m * (5 + 3 * M) * ε by positivity)
    rw [hu]; linarith
  have y3 : y + δ ≤ √ (m * x ^ 2 + A * b ^ 2) + (3 * M + m * (5 + 3 * M) + 2) * u := by linarith
  have s3 : ε * nT ≤ u := by
    have := mul_le_mul_of_nonneg_left (hn.trans gc) hε
    rw [hu]; exact this
  have z1 : √ ((x + v) ^ 2 + w * (τ * ((1 + ε) * c)) ^ 2) ≤ √ (x ^ 2 + w * b ^ 2) + u := by
    obtain ⟨e, he⟩ : ∃ e : ℝ, e = √ w := ⟨_, rfl⟩
    have he2 : e ^ 2 = w := by rw [he]; exact Real.sq_sqrt hw
    have t1 : √ ((x + v) ^ 2 + w * (τ * ((1 + ε) * c)) ^ 2) ≤ √ ((x + u) ^ 2 + (e * b + 0) ^ 2) := by
      refine Real.sqrt_le_sqrt (add_le_add (pow_le_pow_left₀ (by linarith) (by linarith) 2) ?_)
      rw [add_zero, mul_pow e b, he2]
      refine mul_le_mul_of_nonneg_left (pow_le_pow_left₀ (by positivity) ?_ 2) hw
      rw [hb]; exact mul_le_mul_of_nonneg_left (mul_le_mul_of_nonneg_right ge hc) hτ
    refine t1.trans (sqrt_pair.trans (add_le_add (le_of_eq ?_) (le_of_eq ?_)))
    · rw [mul_pow, he2]
    · rw [show u ^ 2 + (0 : ℝ) ^ 2 = u ^ 2 by ring, Real.sqrt_sq hu0]
  obtain ⟨P, hP⟩ : ∃ P, P = √ (x ^ 2 + w * b ^ 2) := ⟨_, rfl⟩
  obtain ⟨Q, hQ⟩ : ∃ Q, Q = √ (m * x ^ 2 + A * b ^ 2) := ⟨_, rfl⟩
  have hP2 : P ^ 2 = x ^ 2 + w * b ^ 2 := by rw [hP]; exact Real.sq_sqrt (by positivity)
  have hQ2 : Q ^ 2 = m * x ^ 2 + A * b ^ 2 := by rw [hQ]; exact Real.sq_sqrt (by positivity)
  rw [← hP] at z1
  rw [← hQ] at y3
  obtain ⟨f, hf⟩ : ∃ f, f = (3 * M + m * (5 + 3 * M) + 2) * u := ⟨_, rfl⟩
  have hf0 : 0 ≤ f := by rw [hf]; positivity
  rw [← hf] at y3
  have z2' : √ ((x + v) ^ 2 + w * (τ * ((1 + ε) * c)) ^ 2 + (y + δ) ^ 2) ≤ √ (P ^ 2 + Q ^ 2) + (u + f) := by
    have t0 := Real.sq_sqrt (show 0 ≤ (x + v) ^ 2 + w * (τ * ((1 + ε) * c)) ^ 2 by positivity)
    have t1 : √ ((x + v) ^ 2 + w * (τ * ((1 + ε) * c)) ^ 2 + (y + δ) ^ 2) ≤ √ ((P + u) ^ 2 + (Q + f) ^ 2) := by
      refine Real.sqrt_le_sqrt (add_le_add ?_ (pow_le_pow_left₀ (by linarith) y3 2))
      rw [← t0]
      exact pow_le_pow_left₀ (Real.sqrt_nonneg _) z1 2
    exact t1.trans (sqrt_pair.trans (add_le_add le_rfl (sqrt_pair_le hu0 hf0)))
  have e1 : P ^ 2 + Q ^ 2 = (m + 1 : ℕ) * x ^ 2 + (A + w) * b ^ 2 := by rw [hP2, hQ2]; push_cast; ring
  rw [e1] at z2'
  have hMM : M ≤ √ ((m + 1 : ℕ) : ℝ) := by rw [hM]; exact Real.sqrt_le_sqrt (by push_cast; linarith)
  have e2 : ((m + 1 : ℕ) : ℝ) * (5 + 3 * √ ((m + 1 : ℕ) : ℝ)) * ε * g * c = ((m + 1 : ℕ) : ℝ) * (5 + 3 * √ ((m + 1 : ℕ) : ℝ)) * u := by
    rw [hu]; ring
  rw [e2]
  have e3 : ((m + 1 : ℕ) : ℝ) * (5 + 3 * M) * u ≤ ((m + 1 : ℕ) : ℝ) * (5 + 3 * √ ((m + 1 : ℕ) : ℝ)) * u := by
    refine mul_le_mul_of_nonneg_right (mul_le_mul_of_nonneg_left (by linarith) (Nat.cast_nonneg _)) hu0
  have e4 : ((m + 1 : ℕ) : ℝ) * (5 + 3 * M) * u = (u + f) + 2 * u := by rw [hf]; push_cast; ring
  linarith

theorem partner_coreShape {ε : ℝ} : ∀ {Os Ps : List (ND ℝ)}, List.Forall₂ (Partner ε) Os Ps → coreShape Ps = coreShape Os
  | _, _, .nil => rfl
  | O :: Os, P :: Ps, .cons h hs => by
    show P.dim 1 :: coreShape Ps = O.dim 1 :: coreShape Os
    rw [partner_coreShape hs]
    unfold ND.dim
    rw [h.1]

theorem partner_leftOrth {ε : ℝ} : ∀ {Os Ps : List (ND ℝ)}, List.Forall₂ (Partner ε) Os Ps → ∀ C ∈ Ps, C.LeftOrthogonal
  | _, _, .nil, _, h => by cases h
  | _, _, .cons h hs, C, hC => by
    rcases List.mem_cons.1 hC with rfl | hC
    exacts [h.2.2, partner_leftOrth hs C hC]

theorem roundLoop_approx {la : LinAlg} {ε : ℝ} (hε : 0 ≤ ε) (hs : la.SVDApprox ε) (eps : ℝ) (he : 0 ≤ eps) (mr : List ℕ) :
    ∀ (Cs Cs' : List (ND ℝ)) (C : ND ℝ) (r n s : ℕ), C.shape = [r, n, s] → TTChain 1 Cs.reverse r → TTChain 1 Cs'.reverse r →
    List.Forall₂ (Partner ε) Cs Cs' → 0 < n → 0 < s → (∀ D ∈ C :: Cs, 0 < D.dim 0 ∧ 0 < D.dim 1) →
    ∃ N disc, TT.roundLoop la eps mr none (C :: Cs) = .ok (N, disc) ∧ TTChain 1 N.reverse s ∧
      coreShape N = coreShape (C :: Cs) ∧ N.length = Cs.length + 1 ∧
      (∀ D ∈ N.dropLast, ∃ D', RightPartner ε D D') ∧
      (∀ k < Cs.length, 1 ≤ bondOf N k ∧ bondOf N k ≤ max 1 (mr.getD (Cs.length - 1 - k) 0) ∧
        bondOf N k ≤ bondOf (C :: Cs) k) ∧
      d2 (coreShape (C :: Cs')).reverse s (revVal N) z2 ≤ (1 + ε) ^ (4 * Cs.length) * frobN C ∧
      ∀ G, (∀ mu < Cs.length, SplitsAt (coreShape (C :: Cs')).reverse s G mu (mr.getD mu 0)) →
        d2 (coreShape (C :: Cs')).reverse s (revVal (C :: Cs')) (revVal N)
          ≤ √ (Cs.length * d2 (coreShape (C :: Cs')).reverse s (revVal (C :: Cs')) G ^ 2
            + (∑ mu ∈ range Cs.length, (mr.getD mu 0 : ℝ)) * (eps * ((1 + ε) ^ (4 * Cs.length) * frobN C)) ^ 2)
          + Cs.length * (5 + 3 * √ (Cs.length : ℝ)) * ε * (1 + ε) ^ (4 * Cs.length) * frobN C
  | [], [], C, r, n, s, hC, hCs, hCs', hP, hn, hs0, hpos => by
    cases hCs
    have h0 : d2 (coreShape [C]).reverse s (revVal [C]) (revVal [C]) = 0 := by
      unfold d2 dist2
      simp [sumIdx_eq_sum]
    refine ⟨[C], [], rfl, ⟨n, s, hC, rfl⟩, rfl, rfl, by simp, fun k hk => by simp at hk, ?_, ?_⟩
    · rw [rev_norm (Cs := []) (r := 1) rfl (by simp) hC]; simp
    · intro G _
      rw [h0]; simp
  | D :: Ds, D' :: Ds', C, r, n, s, hC, hCs, hCs', .cons hPD hPDs, hn, hs0, hpos => by
    have hr : 0 < r := by have := (hpos C List.mem_cons_self).1; rwa [(dim_of_shape3 hC).1] at this
    rw [List.reverse_cons] at hCs hCs'
    obtain ⟨q, hD1, m, t, hD2, hD3⟩ := hCs.split
    cases hD3
    obtain ⟨q', hD1', m', t', hD2', hD3'⟩ := hCs'.split
    have hsh : [q', m', t'] = [q, m, r] := by rw [← hD2, ← hD2', hPD.1]
    simp only [List.cons.injEq, and_true] at hsh
    obtain ⟨rfl, rfl, rfl⟩ := hsh
    have hap := hs (C.reshape [t', n * s]) t' (n * s) rfl
    generalize hUSV : la.svd (C.reshape [t', n * s]) = USV at hap
    obtain ⟨U, S, Vt⟩ := USV
    simp only at hap
    have hU := hap.1
    have hVt := hap.2.1
    have hSl : S.length = min t' (n * s) := by
      obtain ⟨_, _, _, _, _, _, h, _⟩ := hap
      exact h.length
    obtain ⟨k, US, V, hk, hk1, hkl, hUS, hUSg, hV, hVg, hloop⟩ :=
      roundLoop_step_shapes eps mr D Ds hC hr hn hs0 hUSV hU hVt hSl
    have hlen : Ds.length = Ds'.length := hPDs.length_eq
    have hO' := partner_leftOrth hPDs
    have st := approxRoundStep hε he hC hD2 hPD hD1' hO' hap hk hk1 hkl hUS hUSg hV hVg
    have hE : (ND.es_ijk_kl_ijl D US).shape = [q', m', k] := ND.es_ijk_kl_ijl_shape hD2 hUS
    have hDp := hpos D (by simp)
    rw [(dim_of_shape3 hD2).1, (dim_of_shape3 hD2).2.1] at hDp
    obtain ⟨N, disc, n1, n2, n3, n4, n5, n6, n7, n8⟩ := roundLoop_approx hε hs eps he mr Ds Ds' (ND.es_ijk_kl_ijl D US) q' m' k hE
      hD1 hD1' hPDs hDp.2 hk1 (by
        intro E hE'
        rcases List.mem_cons.1 hE' with rfl | hE'
        · rw [(dim_of_shape3 hE).1, (dim_of_shape3 hE).2.1]; exact hDp
        · exact hpos E (by simp [hE']))
    have hNne : N ≠ [] := by intro h; rw [h] at n4; simp at n4
    have hcs : coreShape (ND.es_ijk_kl_ijl D US :: Ds) = coreShape (D :: Ds) := by
      rw [coreShape_cons, coreShape_cons, (dim_of_shape3 hE).2.1, (dim_of_shape3 hD2).2.1]
    have hcs' : coreShape (ND.es_ijk_kl_ijl D US :: Ds') = coreShape (D' :: Ds') := by
      rw [coreShape_cons, coreShape_cons, (dim_of_shape3 hE).2.1, (dim_of_shape3 hD2').2.1]
    rw [hcs'] at n7 n8
    have hval : ∀ p, InR (coreShape (C :: D' :: Ds')).reverse p → ∀ y < s, revVal (V :: N) p y = appR V k (revVal N) p y := by
      intro p hp y _
      have hpl := hp.length
      rw [coreShape_cons C, List.reverse_cons] at hpl
      have hl : p ≠ [] := by intro h; rw [h] at hpl; simp at hpl
      obtain ⟨p', i, rfl⟩ : ∃ p' i, p = p' ++ [i] := ⟨p.dropLast, p.getLast hl, (List.dropLast_append_getLast hl).symm⟩
      rw [revVal_cons hV n2 (by
        rw [n4]
        simp [coreShape_length] at hpl
        omega), appR_concat]
    refine ⟨V :: N, S.drop k :: disc, by rw [hloop, n1]; rfl, ?_, ?_, by simp [n4], ?_, ?_, ?_, ?_⟩
    · rw [List.reverse_cons]; exact n2.append ⟨n, s, hV, rfl⟩
    · rw [coreShape_cons, coreShape_cons, n3, hcs, (dim_of_shape3 hV).2.1, (dim_of_shape3 hC).2.1]
    · intro E hE'
      rw [List.dropLast_cons_of_ne_nil hNne] at hE'
      rcases List.mem_cons.1 hE' with rfl | hE'
      · exact st.partner
      · exact n5 E hE'
    · intro j hj
      cases j with
      | zero =>
        have e0 : bondOf (V :: N) 0 = k := (dim_of_shape3 hV).1
        have e1 : bondOf (C :: D :: Ds) 0 = t' := (dim_of_shape3 hC).1
        rw [e0, e1]
        refine ⟨hk1, ?_, by omega⟩
        have : (D :: Ds).length - 1 - 0 = Ds.length := by simp
        rw [this, hk]; exact keepRank_le_max _ _ _
      | succ j =>
        have hj : j < Ds.length := by simpa using hj
        obtain ⟨m1, m2, m3⟩ := n6 j hj
        have e1 : bondOf (C :: D :: Ds) (j + 1) = bondOf (ND.es_ijk_kl_ijl D US :: Ds) j := by
          cases j with
          | zero => show D.dim 0 = (ND.es_ijk_kl_ijl D US).dim 0; rw [(dim_of_shape3 hE).1, (dim_of_shape3 hD2).1]
          | succ j => rfl
        have e2 : (D :: Ds).length - 1 - (j + 1) = Ds.length - 1 - j := by simp; omega
        rw [e1, e2]
        exact ⟨m1, m2, m3⟩
    · rw [d2_congr hval (G' := z2) (fun _ _ _ _ => rfl), List.length_cons]
      have h1 := st.grow (revVal N)
      have h2 := mul_le_mul_of_nonneg_left n7 (show 0 ≤ 1 + ε by linarith)
      have h3 := mul_le_mul_of_nonneg_left st.next (show 0 ≤ (1 + ε) * (1 + ε) ^ (4 * Ds.length) by positivity)
      have e : (1 + ε) ^ (4 * (Ds.length + 1)) = (1 + ε) * (1 + ε) ^ (4 * Ds.length) * (1 + ε) ^ 3 := by ring
      rw [e]
      linarith
    · intro G hG
      rw [d2_congr (F' := revVal (C :: D' :: Ds')) (fun _ _ _ _ => rfl) hval]
      have h0 := hG Ds.length (by simp)
      rw [hlen] at h0
      rw [hlen] at st
      obtain ⟨G', g1, g2, g3⟩ := st.err G h0
      have IH := n8 G' fun mu hmu => g1 mu _ (by simp; omega) (hG mu (by simp; omega))
      refine (g3 _).trans ?_
      rw [List.length_cons, sum_range_succ, hlen]
      rw [hlen] at IH n7
      exact round_arith hε he (d2_nonneg _ _ _ _) (frobN_nonneg _) (sum_nonneg fun _ _ => Nat.cast_nonneg _) (Nat.cast_nonneg _)
        Ds'.length (frobN_nonneg _) st.next (d2_nonneg _ _ _ _) g2 (d2_nonneg _ _ _ _) IH n7

end TTS
