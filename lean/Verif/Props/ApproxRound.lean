import Verif.Proofs.ApproxRound
import Verif.Props.ApproxOrth
import Verif.Props.Round

/-!
# C94: rounding with inexact QR factorisations and singular value decompositions
-/

namespace TTS.Props

open Finset TTS.Spec

theorem rightPartner_near {ε : ℝ} (hε : 0 ≤ ε) {O P : ND ℝ} {a n k : ℕ} (hO : O.shape = [a, n, k]) (h : RightPartner ε O P) :
    O.NearRightOrthogonal (2 * ε + ε ^ 2) := by
  obtain ⟨h1, h2, h3⟩ := h
  obtain ⟨d0, d1, d2⟩ := dim_of_shape3 hO
  obtain ⟨e0, e1, e2⟩ := dim_of_shape3 (h1.trans hO)
  intro s hs t ht
  rw [d0] at hs ht
  rw [d1, d2]
  have hg : Orthn (range n ×ˢ range k) a fun t j => P.get [t, j.1, j.2] := by
    intro s hs t ht
    have := h3 s (by rw [e0]; exact hs) t (by rw [e0]; exact ht)
    rw [e1, e2] at this
    rw [sum_product]; exact this
  have hall : ∑ z ∈ range a, ∑ i ∈ range n, ∑ j ∈ range k, (O.get [z, i, j] - P.get [z, i, j]) ^ 2 ≤ ε ^ 2 := by
    have h4 : frobD O P ^ 2 ≤ ε ^ 2 := pow_le_pow_left₀ (frobD_nonneg _ _) h2 2
    unfold frobD at h4
    rw [Real.sq_sqrt (distSq_nonneg _ _)] at h4
    unfold distSq at h4
    rw [hO] at h4
    exact h4
  have := near_orth (n := n) hε hg (f := fun t j => O.get [t, j.1, j.2]) (fun s hs => by
    refine (Real.sqrt_le_left hε).2 (le_trans ?_ hall)
    rw [sum_product]
    exact single_le_sum (f := fun z => ∑ i ∈ range n, ∑ j ∈ range k, (O.get [z, i, j] - P.get [z, i, j]) ^ 2)
      (fun _ _ => sum_nonneg fun _ _ => sum_nonneg fun _ _ => sq_nonneg _) (mem_range.2 hs)) s hs t ht
  rw [sum_product] at this
  exact this

theorem list_sum_getD : ∀ l : List ℕ, ∑ mu ∈ range l.length, (l.getD mu 0 : ℝ) = (l.sum : ℝ) := by
  intro l
  induction l with
  | nil => simp
  | cons a l ih =>
    rw [List.length_cons, sum_range_succ', List.sum_cons]
    simp only [List.getD_cons_succ, List.getD_cons_zero]
    rw [ih]; push_cast; ring

theorem chain_shape3 : ∀ {Cs : List (ND ℝ)} {r s : ℕ}, TTChain r Cs s → ∀ C ∈ Cs, ∃ a n k, C.shape = [a, n, k]
  | [], _, _, _, _, hC => by cases hC
  | _ :: _, _, _, ⟨_, _, hD, hDs⟩, C, hC => by
    rcases List.mem_cons.1 hC with rfl | hC
    · exact ⟨_, _, _, hD⟩
    · exact chain_shape3 hDs C hC

theorem forall2_reverse {α β : Type*} {R : α → β → Prop} {l : List α} {m : List β} (h : List.Forall₂ R l m) :
    List.Forall₂ R l.reverse m.reverse := by
  exact List.rel_reverse h

/-- The rounding sweep on a train `O` whose cores but the last are near the exactly orthogonal ones of a train `P`. -/
theorem round_sweep {la : LinAlg} {ε : ℝ} (hε : 0 ≤ ε) (hs : la.SVDApprox ε) {O P : TT ℝ} {L : ND ℝ} (hO : O.Valid)
    (hP : P.Valid) (hpos : O.Pos) (hOL : O.cores = O.cores.dropLast ++ [L]) (hPL : P.cores = P.cores.dropLast ++ [L])
    (hOP : List.Forall₂ (Partner ε) O.cores.dropLast P.cores.dropLast) (eps : ℝ) (he : 0 ≤ eps) (mr : List ℕ) :
    ∃ N disc, TT.roundLoop la eps mr none O.cores.reverse = .ok (N, disc) ∧ (TT.mk N.reverse).Valid ∧
      (TT.mk N.reverse).shape = O.shape ∧ (TT.mk N.reverse).Pos ∧ RanksLe (TT.mk N.reverse).rank O.rank ∧
      (∀ k < O.rank.length, (TT.mk N.reverse).rank.getD k 0 ≤ max 1 (mr.getD k 0)) ∧
      (∀ C ∈ N.reverse.tail, C.NearRightOrthogonal (2 * ε + ε ^ 2)) ∧
      (∀ Z : TT ℝ, Z.Valid → Z.shape = O.shape → Z.rank = mr →
        frobD P.toNumpy (TT.mk N.reverse).toNumpy
          ≤ √ (O.rank.length * frobD P.toNumpy Z.toNumpy ^ 2
            + (mr.sum : ℝ) * (eps * ((1 + ε) ^ (4 * O.rank.length) * frobN P.toNumpy)) ^ 2)
          + O.rank.length * (5 + 3 * √ (O.rank.length : ℝ)) * ε * (1 + ε) ^ (4 * O.rank.length) * frobN P.toNumpy) := by
  obtain ⟨C, Cs, r, n, hrev, hC, hCs, hdl⟩ := tt_reverse hO
  have hcores : O.cores = (C :: Cs).reverse := by rw [← hrev, List.reverse_reverse]
  have hCL : C = L := by
    rw [hOL, List.reverse_append] at hrev
    exact (List.cons.inj hrev).1.symm
  subst hCL
  have hOch : TTChain 1 O.cores 1 := hO.2
  obtain ⟨C', Cs', r', n', hrev', hC', hCs', hdl'⟩ := tt_reverse hP
  have hcores' : P.cores = (C' :: Cs').reverse := by rw [← hrev', List.reverse_reverse]
  have hCL' : C' = C := by
    rw [hPL, List.reverse_append] at hrev'
    exact (List.cons.inj hrev').1.symm
  subst hCL'
  have hrn : [r', n', 1] = [r, n, 1] := by rw [← hC, ← hC']
  simp only [List.cons.injEq, and_true] at hrn
  obtain ⟨rfl, rfl⟩ := hrn
  have hshape : (coreShape (C' :: Cs)).reverse = O.shape := by
    show _ = coreShape O.cores
    rw [hcores]; exact List.map_reverse.symm
  have hPP : List.Forall₂ (Partner ε) Cs Cs' := by
    rw [hdl, hdl'] at hOP
    simpa using forall2_reverse hOP
  have hshape' : (coreShape (C' :: Cs')).reverse = O.shape := by
    rw [← hshape, coreShape_cons, coreShape_cons, partner_coreShape hPP]
  have hPs : P.shape = O.shape := by
    rw [← hshape']
    show coreShape P.cores = _
    rw [hcores']; exact List.map_reverse
  have hpos' : ∀ D ∈ C' :: Cs, 0 < D.dim 0 ∧ 0 < D.dim 1 := by
    intro D hD
    have hD' : D ∈ O.cores := by rw [hcores]; exact List.mem_reverse.2 hD
    refine ⟨?_, hpos.1 _ (List.mem_map.2 ⟨D, hD', rfl⟩)⟩
    match hc : O.cores, hOch with
    | [], _ => rw [hc] at hD'; simp at hD'
    | A :: As, ⟨m, t, hA, _⟩ =>
      rw [hc] at hD'
      rcases List.mem_cons.1 hD' with rfl | hD'
      · rw [(dim_of_shape3 hA).1]; exact one_pos
      · exact hpos.2 _ (List.mem_map.2 ⟨D, by rw [hc]; exact hD', rfl⟩)
  have hn : 0 < n' := by have := (hpos' C' List.mem_cons_self).2; rwa [(dim_of_shape3 hC).2.1] at this
  obtain ⟨N, disc, n1, n2, n3, n4, n5, n6, -, n8⟩ := roundLoop_approx hε hs eps he mr Cs Cs' C' r' n' 1 hC hCs hCs' hPP hn
    one_pos hpos'
  have hOl : O.cores.length = Cs.length + 1 := by rw [hcores]; simp
  have hrl : O.rank.length = Cs.length := by simp [TT.rank, hOl]
  have hv : (TT.mk N.reverse).Valid := ⟨by
    intro h
    have := congrArg List.length (show N.reverse = [] from h)
    simp [n4] at this, n2⟩
  have hsh : (TT.mk N.reverse).shape = O.shape := by
    rw [← hshape, ← n3]; exact List.map_reverse
  have rk : ∀ (L : List (ND ℝ)) (k : ℕ), L.length = Cs.length + 1 → k < Cs.length →
      (TT.mk L.reverse).rank.getD k 0 = bondOf L (Cs.length - 1 - k) := by
    intro L k hL hk
    unfold TT.rank bondOf
    rw [getD_map_lt _ _ k (by simp [hL, hk]) (ND.zeros []), List.getD_eq_getElem?_getD, List.getElem?_tail,
      List.getElem?_reverse (by omega), ← List.getD_eq_getElem?_getD, hL]
    rw [show Cs.length + 1 - 1 - (k + 1) = Cs.length - 1 - k by omega]
  have hOmk : O = TT.mk (C' :: Cs).reverse := by rw [← hcores]
  have b : ∀ k < O.rank.length, 1 ≤ (TT.mk N.reverse).rank.getD k 0 ∧
      (TT.mk N.reverse).rank.getD k 0 ≤ max 1 (mr.getD k 0) ∧
      (TT.mk N.reverse).rank.getD k 0 ≤ O.rank.getD k 0 := by
    intro k hk
    rw [hrl] at hk
    obtain ⟨m1, m2, m3⟩ := n6 (Cs.length - 1 - k) (by omega)
    rw [show Cs.length - 1 - (Cs.length - 1 - k) = k by omega] at m2
    have e1 := rk N k n4 hk
    have e2 := rk (C' :: Cs) k rfl hk
    rw [← hOmk] at e2
    rw [e1, e2]
    exact ⟨m1, m2, m3⟩
  have hNrl : (TT.mk N.reverse).rank.length = Cs.length := by simp [TT.rank, n4]
  refine ⟨N, disc, by rw [hrev]; exact n1, hv, hsh, ⟨by rw [hsh]; exact hpos.1, ?_⟩, ⟨by rw [hNrl, hrl], ?_⟩,
    fun k hk => (b k hk).2.1, ?_, ?_⟩
  · intro w hw
    obtain ⟨k, hk, rfl⟩ := List.mem_iff_getElem.1 hw
    have := (b k (by rw [hrl, ← hNrl]; exact hk)).1
    rw [List.getD_eq_getElem _ _ hk] at this
    omega
  · intro k hk
    exact (b k (by rw [hrl, ← hNrl]; exact hk)).2.2
  · intro D hD
    obtain ⟨a, n, k, h3⟩ := chain_shape3 n2 D (List.mem_of_mem_tail hD)
    have : N.reverse.tail = N.dropLast.reverse := by rw [List.tail_reverse]
    rw [this] at hD
    obtain ⟨D', hD'⟩ := n5 D (List.mem_reverse.1 hD)
    exact rightPartner_near hε h3 hD'
  · intro Z hZ hZs hZr
    have hml : mr.length = Cs.length := by
      have h1 := rank_length hZ
      rw [hZs, hZr] at h1
      have : O.shape.length = Cs.length + 1 := by simp [TT.shape, hOl]
      omega
    have h := n8 (fun p y => if y = 0 then Z.toNumpy.get p else 0) (by
      intro mu hmu
      have := splits_tt hZ (mu := mu) (by rw [hZr, hml]; exact hmu)
      rw [hZs, hZr] at this
      rw [hshape']; exact this)
    have e0 : ∀ p, revVal (C' :: Cs') p 0 = P.toNumpy.get p := by
      intro p; rw [TT.toNumpy_get hP, ttEntry, hcores']; rfl
    have eN : ∀ p, revVal N p 0 = (TT.mk N.reverse).toNumpy.get p := by
      intro p; rw [TT.toNumpy_get hv]; rfl
    have d0 : d2 (coreShape (C' :: Cs')).reverse 1 (revVal (C' :: Cs')) (revVal N)
        = frobD P.toNumpy (TT.mk N.reverse).toNumpy := by
      unfold d2 dist2 frobD distSq
      rw [sum_range_one, hshape', TT.toNumpy_shape hP, hPs]
      congr 1
      exact sumIdx_congr fun p _ => by rw [e0, eN]
    have d1 : d2 (coreShape (C' :: Cs')).reverse 1 (revVal (C' :: Cs')) (fun p y => if y = 0 then Z.toNumpy.get p else 0)
        = frobD P.toNumpy Z.toNumpy := by
      unfold d2 dist2 frobD distSq
      rw [sum_range_one, hshape', TT.toNumpy_shape hP, hPs]
      congr 1
      exact sumIdx_congr fun p _ => by rw [e0]; rfl
    have hc : frobN C' = frobN P.toNumpy := by
      have := orth_norm hP (partner_orth hOP)
      rw [hPL, List.getLastD_concat] at this
      unfold frobN; rw [this]
    have hsum : ∑ mu ∈ range Cs.length, (mr.getD mu 0 : ℝ) = (mr.sum : ℝ) := by rw [← hml]; exact list_sum_getD mr
    rw [d0, d1, hc, hsum] at h
    rw [hrl]; exact h

theorem round_total {ε τ S e x n c B : ℝ} (N : ℕ) (hε : 0 ≤ ε) (hτ : 0 ≤ τ) (hS : 0 ≤ S) (he : 0 ≤ e) (hx : 0 ≤ x) (hn : 0 ≤ n)
    (hc : 0 ≤ c) {x' y : ℝ} (hx'0 : 0 ≤ x') (hx' : x' ≤ x + e) (hcn : c ≤ n + e) (hcB : c ≤ (1 + ε) ^ N * B)
    (heB : e ≤ N * ε * (1 + ε) ^ N * B)
    (hy : y ≤ √ (N * x' ^ 2 + S * (τ * ((1 + ε) ^ (4 * N) * c)) ^ 2) + N * (5 + 3 * √ (N : ℝ)) * ε * (1 + ε) ^ (4 * N) * c) :
    e + y ≤ √ (N * x ^ 2 + S * (τ * ((1 + ε) ^ (4 * N) * n)) ^ 2)
      + N * (6 + 4 * √ (N : ℝ) + τ * √ S) * ε * (1 + ε) ^ (5 * N) * B := by
  have hp : 1 ≤ 1 + ε := by linarith
  obtain ⟨g, hg⟩ : ∃ g, g = (1 + ε) ^ (4 * N) := ⟨_, rfl⟩
  obtain ⟨h, hh⟩ : ∃ h, h = (1 + ε) ^ N := ⟨_, rfl⟩
  have hgh : (1 + ε) ^ (5 * N) = g * h := by rw [hg, hh, ← pow_add]; congr 1; ring
  have g1 : 1 ≤ g := by rw [hg]; exact one_le_pow₀ hp
  rw [hgh]
  rw [← hg] at hy ⊢
  rw [← hh] at hcB heB
  obtain ⟨M, hM⟩ : ∃ M : ℝ, M = √ (N : ℝ) := ⟨_, rfl⟩
  have hM0 : 0 ≤ M := by rw [hM]; exact Real.sqrt_nonneg _
  have hM2 : M ^ 2 = N := by rw [hM]; exact Real.sq_sqrt (Nat.cast_nonneg _)
  obtain ⟨T, hT⟩ : ∃ T : ℝ, T = √ S := ⟨_, rfl⟩
  have hT0 : 0 ≤ T := by rw [hT]; exact Real.sqrt_nonneg _
  have hT2 : T ^ 2 = S := by rw [hT]; exact Real.sq_sqrt hS
  rw [← hM] at hy ⊢
  rw [← hT]
  have t1 : √ (N * x' ^ 2 + S * (τ * (g * c)) ^ 2) ≤ √ (N * x ^ 2 + S * (τ * (g * n)) ^ 2) + (M * e + T * (τ * (g * e))) := by
    have a1 : √ (N * x' ^ 2 + S * (τ * (g * c)) ^ 2) ≤ √ ((M * x + M * e) ^ 2 + (T * (τ * (g * n)) + T * (τ * (g * e))) ^ 2) := by
      refine Real.sqrt_le_sqrt (add_le_add ?_ ?_)
      · rw [← mul_add, mul_pow M, hM2]
        exact mul_le_mul_of_nonneg_left (pow_le_pow_left₀ hx'0 hx' 2) (Nat.cast_nonneg _)
      · rw [← mul_add, mul_pow T, hT2, ← mul_add, ← mul_add]
        refine mul_le_mul_of_nonneg_left (pow_le_pow_left₀ (by positivity) ?_ 2) hS
        exact mul_le_mul_of_nonneg_left (mul_le_mul_of_nonneg_left hcn (by linarith)) hτ
    refine a1.trans (sqrt_pair.trans (add_le_add (le_of_eq ?_) (sqrt_pair_le (by positivity) (by positivity))))
    rw [mul_pow M, hM2, mul_pow T, hT2]
  have t2 : e ≤ N * ε * (g * h * B) := by
    have : N * ε * h * B ≤ N * ε * (g * h * B) := by
      have h0 : 0 ≤ N * ε * h * B := he.trans heB
      nlinarith
    linarith
  have t2' : g * e ≤ N * ε * (g * h * B) := by
    have := mul_le_mul_of_nonneg_left heB (show 0 ≤ g by linarith)
    linarith
  have t3 : N * (5 + 3 * M) * ε * g * c ≤ (5 + 3 * M) * (N * ε * (g * h * B)) := by
    have := mul_le_mul_of_nonneg_left hcB (show 0 ≤ N * (5 + 3 * M) * ε * g by positivity)
    linarith
  have t4 : M * e ≤ M * (N * ε * (g * h * B)) := mul_le_mul_of_nonneg_left t2 hM0
  have t5 : T * (τ * (g * e)) ≤ T * (τ * (N * ε * (g * h * B))) :=
    mul_le_mul_of_nonneg_left (mul_le_mul_of_nonneg_left t2' hτ) hT0
  have e1 : N * (6 + 4 * M + τ * T) * ε * (g * h) * B = (N * ε * (g * h * B)) + (M * (N * ε * (g * h * B)) +
    T * (τ * (N * ε * (g * h * B)))) + (5 + 3 * M) * (N * ε * (g * h * B)) := by ring
  linarith

/-- Positive ranks, by the recursion of C93. -/
theorem pos_of_recursion {X O : TT ℝ} (hX : X.Valid) (hO : O.Valid) (hp : X.Pos) (hsh : O.shape = X.shape)
    (h : ∀ k < X.rank.length, O.rank.getD k 0 = min ((1 :: O.rank).getD k 0 * X.shape.getD k 0) (X.rank.getD k 0)) :
    O.Pos ∧ RanksLe O.rank X.rank := by
  have hl := rank_length hX
  have hl' := rank_length hO
  rw [hsh] at hl'
  have hpos : ∀ k ≤ X.rank.length, 0 < (1 :: O.rank).getD k 0 := by
    intro k
    induction k with
    | zero => intro _; exact one_pos
    | succ k ih =>
      intro hk
      rw [List.getD_cons_succ, h k hk]
      refine lt_min (Nat.mul_pos (ih (by omega)) ?_) ?_
      · rw [List.getD_eq_getElem _ _ (by omega)]; exact hp.1 _ (List.getElem_mem _)
      · rw [List.getD_eq_getElem _ _ (by omega)]; exact hp.2 _ (List.getElem_mem _)
  refine ⟨⟨by rw [hsh]; exact hp.1, ?_⟩, by omega, fun k hk => ?_⟩
  · intro r hr
    obtain ⟨k, hk, rfl⟩ := List.mem_iff_getElem.1 hr
    have := hpos (k + 1) (by omega)
    rwa [List.getD_cons_succ, List.getD_eq_getElem _ _ hk] at this
  · rw [h k (by omega)]; exact min_le_right _ _

/-- **C94.** If the QR and SVD routines are backward stable with relative error `ε`, then `X.round(eps=τ, max_rank=a)` returns,
for every tensor train with `d` positive sizes and positive ranks, a tensor train of the same shape whose ranks exceed neither
those of `X` nor (`max 1` of) the trimmed requested ones, and whose cores but the first are right-orthogonal up to `2ε + ε²`.
Its error exceeds the bound of exact arithmetic, `√((d-1) ‖X-Z‖² + S τ² ‖X‖²)` for every train `Z` with the requested ranks
(`S` is the sum of the trimmed requested ranks), by no more than the factor `(1+ε)^(4(d-1))` in the threshold and a multiple of
`ε` times the product of the norms of the cores of `X`. -/
theorem C94 {la : LinAlg} {ε : ℝ} (hε : 0 ≤ ε) (hq : la.QRApprox ε) (hs : la.SVDApprox ε) {X : TT ℝ} (hX : X.Valid) (hp : X.Pos)
    (eps : Option ℝ) (he : 0 ≤ eps.getD 0) (a : RankArg) (hmr : (askedRanks X.shape a).length + 1 = X.shape.length) :
    ∃ Y, X.round la eps (some a) false = .ok Y ∧ Y.Valid ∧ Y.shape = X.shape ∧ Y.Pos ∧ RanksLe Y.rank X.rank ∧
      (∀ k < X.rank.length, Y.rank.getD k 0 ≤ max 1 ((trimRanks X.shape (askedRanks X.shape a)).getD k 0)) ∧
      (∀ C ∈ Y.cores.tail, C.NearRightOrthogonal (2 * ε + ε ^ 2)) ∧
      ∀ Z : TT ℝ, Z.Valid → Z.shape = X.shape → RanksLe Z.rank (askedRanks X.shape a) →
        frobD X.toNumpy Y.toNumpy
          ≤ √ ((X.shape.length - 1 : ℕ) * frobD X.toNumpy Z.toNumpy ^ 2 + ((trimRanks X.shape (askedRanks X.shape a)).sum : ℝ)
              * (eps.getD 0 * ((1 + ε) ^ (4 * (X.shape.length - 1)) * frobN X.toNumpy)) ^ 2)
            + (X.shape.length - 1 : ℕ) * (6 + 4 * √ ((X.shape.length - 1 : ℕ) : ℝ)
              + eps.getD 0 * √ ((trimRanks X.shape (askedRanks X.shape a)).sum : ℝ)) * ε
              * (1 + ε) ^ (5 * (X.shape.length - 1)) * X.coreNorms := by
  obtain ⟨O, P, L, o1, o2, p2, o3, p3, o4, p4, op, o5, o6, o7, -⟩ := orth_approx hε hq hX hp
  obtain ⟨hOp, hOr⟩ := pos_of_recursion hX o2 hp o3 o5
  obtain ⟨rs, r1, r2, r3, -⟩ := round_ranks o2 o3 (some a) (fun b hb => by injection hb with h; rw [← h]; exact hmr)
  obtain rfl := r3 a rfl
  obtain ⟨N, disc, n1, n2, n3, n4, n5, n6, n7, n8⟩ :=
    round_sweep hε hs o2 p2 hOp o4 p4 op (eps.getD 0) he (trimRanks X.shape (askedRanks X.shape a))
  have hl : O.rank.length = X.shape.length - 1 := by have := rank_length hX; have := hOr.1; omega
  refine ⟨⟨N.reverse⟩, ?_, n2, n3.trans o3, n4, ⟨n5.1.trans hOr.1, fun i hi => (n5.2 i hi).trans
    (hOr.2 i (by rw [← n5.1]; exact hi))⟩, fun k hk => n6 k (by rw [hOr.1]; exact hk), n7, ?_⟩
  · unfold TT.round TT.roundTrace
    rw [if_neg (by simp), o1]
    dsimp only
    rw [r1]
    dsimp only
    rw [n1]; rfl
  · intro Z hZ hZs hZr
    obtain ⟨Z', z1, z2, z3, z4⟩ := C04 Z hZ _ hZr
    have h := n8 Z' z1 (by rw [z2, hZs, o3]) (by rw [z3, hZs])
    rw [z4, hl] at h
    have sP : P.toNumpy.shape = X.toNumpy.shape := by rw [TT.toNumpy_shape p2, TT.toNumpy_shape hX, p3]
    have hnL : frobN L = frobN P.toNumpy := by
      have := orth_norm p2 (partner_orth op)
      rw [p4, List.getLastD_concat] at this
      unfold frobN; rw [this]
    rw [hnL] at o6
    refine (frobD_triangle sP).trans (round_total (X.shape.length - 1) hε he (Nat.cast_nonneg _) (frobD_nonneg _ _)
      (frobD_nonneg _ _) (frobN_nonneg _) (frobN_nonneg _) (frobD_nonneg _ _) ?_ (frobN_le sP) o6 o7 h)
    have := frobD_triangle (A := P.toNumpy) (B := X.toNumpy) (C := Z.toNumpy) sP.symm
    rw [frobD_symm sP]; linarith

/-- **C94, tolerance only.** Without a maximal rank, the error is at most `τ √S (1+ε)^(4(d-1)) ‖X‖`, with `S` the sum of the
ranks of `X`, plus a multiple of `ε` times the product of the norms of the cores. -/
theorem C94_tolerance {la : LinAlg} {ε : ℝ} (hε : 0 ≤ ε) (hq : la.QRApprox ε) (hs : la.SVDApprox ε) {X : TT ℝ} (hX : X.Valid)
    (hp : X.Pos) (eps : Option ℝ) (he : 0 ≤ eps.getD 0) :
    ∃ Y, X.round la eps none false = .ok Y ∧ Y.Valid ∧ Y.shape = X.shape ∧ Y.Pos ∧ RanksLe Y.rank X.rank ∧
      (∀ C ∈ Y.cores.tail, C.NearRightOrthogonal (2 * ε + ε ^ 2)) ∧
      frobD X.toNumpy Y.toNumpy
          ≤ eps.getD 0 * √ (X.rank.sum : ℝ) * ((1 + ε) ^ (4 * (X.shape.length - 1)) * frobN X.toNumpy)
            + (X.shape.length - 1 : ℕ) * (6 + 4 * √ ((X.shape.length - 1 : ℕ) : ℝ)
              + eps.getD 0 * √ (X.rank.sum : ℝ)) * ε
              * (1 + ε) ^ (5 * (X.shape.length - 1)) * X.coreNorms := by
  obtain ⟨O, P, L, o1, o2, p2, o3, p3, o4, p4, op, o5, o6, o7, -⟩ := orth_approx hε hq hX hp
  obtain ⟨hOp, hOr⟩ := pos_of_recursion hX o2 hp o3 o5
  obtain ⟨rs, r1, r2, -, r3⟩ := round_ranks o2 o3 none (fun b hb => by cases hb)
  obtain rfl := r3 rfl
  obtain ⟨N, disc, n1, n2, n3, n4, n5, n6, n7, n8⟩ :=
    round_sweep hε hs o2 p2 hOp o4 p4 op (eps.getD 0) he (trimRanks X.shape O.rank)
  have hl : O.rank.length = X.shape.length - 1 := by have := rank_length hX; have := hOr.1; omega
  refine ⟨⟨N.reverse⟩, ?_, n2, n3.trans o3, n4, ⟨n5.1.trans hOr.1, fun i hi => (n5.2 i hi).trans
    (hOr.2 i (by rw [← n5.1]; exact hi))⟩, n7, ?_⟩
  · unfold TT.round TT.roundTrace
    rw [if_neg (by simp), o1]
    dsimp only
    rw [r1]
    dsimp only
    rw [n1]; rfl
  · have hPr : P.rank = O.rank := by
      have hd : List.Forall₂ (Partner ε) O.cores.dropLast P.cores.dropLast := op
      have gen : ∀ {l m : List (ND ℝ)}, List.Forall₂ (Partner ε) l m →
          (m ++ [L]).map (fun C => C.dim 0) = (l ++ [L]).map fun C => C.dim 0 := by
        intro l m h
        induction h with
        | nil => rfl
        | cons h _ ih =>
          simp only [List.cons_append, List.map_cons, ih]
          unfold ND.dim
          rw [h.1]
      have := gen hd
      rw [← o4, ← p4] at this
      unfold TT.rank
      rw [List.map_tail, List.map_tail, this]
    obtain ⟨Z', z1, z2, z3, z4⟩ := C04_self P p2
    have h := n8 Z' z1 (by rw [z2, p3, o3]) (by rw [z3, p3, hPr])
    rw [z4, hl, frobD_self] at h
    have hsum : ((trimRanks X.shape O.rank).sum : ℝ) ≤ (X.rank.sum : ℝ) := by
      have hl : (trimRanks X.shape O.rank).length = X.rank.length := by rw [trimRanks_length _ _ r2, hOr.1]
      rw [← list_sum_getD, ← list_sum_getD, hl]
      refine sum_le_sum fun i hi => ?_
      have hi' : i < O.rank.length := by rw [hOr.1]; exact mem_range.1 hi
      exact_mod_cast (C02 X.shape O.rank r2 i hi').2.1.trans (hOr.2 i hi')
    have h' : frobD P.toNumpy (TT.mk N.reverse).toNumpy ≤ √ ((X.shape.length - 1 : ℕ) * (0 : ℝ) ^ 2 + (X.rank.sum : ℝ)
        * (eps.getD 0 * ((1 + ε) ^ (4 * (X.shape.length - 1)) * frobN P.toNumpy)) ^ 2)
        + (X.shape.length - 1 : ℕ) * (5 + 3 * √ ((X.shape.length - 1 : ℕ) : ℝ)) * ε * (1 + ε) ^ (4 * (X.shape.length - 1))
          * frobN P.toNumpy :=
      h.trans (add_le_add (Real.sqrt_le_sqrt (add_le_add le_rfl (mul_le_mul_of_nonneg_right hsum (sq_nonneg _)))) le_rfl)
    have sP : P.toNumpy.shape = X.toNumpy.shape := by rw [TT.toNumpy_shape p2, TT.toNumpy_shape hX, p3]
    have hnL : frobN L = frobN P.toNumpy := by
      have := orth_norm p2 (partner_orth op)
      rw [p4, List.getLastD_concat] at this
      unfold frobN; rw [this]
    rw [hnL] at o6
    have t := round_total (X.shape.length - 1) hε he (Nat.cast_nonneg _) (frobD_nonneg _ _) le_rfl
      (frobN_nonneg X.toNumpy) (frobN_nonneg _) le_rfl (by rw [zero_add]; exact frobD_nonneg X.toNumpy P.toNumpy)
      (frobN_le sP) o6 o7 h'
    refine (frobD_triangle sP).trans (t.trans (add_le_add (le_of_eq ?_) le_rfl))
    have h0 : 0 ≤ (1 + ε) ^ (4 * (X.shape.length - 1)) * frobN X.toNumpy := mul_nonneg (by positivity) (frobN_nonneg _)
    rw [show ((X.shape.length - 1 : ℕ) : ℝ) * (0 : ℝ) ^ 2 = 0 by ring, zero_add, Real.sqrt_mul (Nat.cast_nonneg _),
      Real.sqrt_sq (mul_nonneg he h0)]
    ring

/-- **C94, `orthogonalized=True`.** If the cores but the last are left-orthogonal and the caller says so, the norm of `X` takes
the place of the product of the norms of the cores, and the QR routine plays no part. -/
theorem C94_orthogonalized {la : LinAlg} {ε : ℝ} (hε : 0 ≤ ε) (hs : la.SVDApprox ε) {X : TT ℝ} (hX : X.Valid) (hp : X.Pos)
    (ho : ∀ C ∈ X.cores.dropLast, C.LeftOrthogonal)
    (eps : Option ℝ) (he : 0 ≤ eps.getD 0) (a : RankArg) (hmr : (askedRanks X.shape a).length + 1 = X.shape.length) :
    ∃ Y, X.round la eps (some a) true = .ok Y ∧ Y.Valid ∧ Y.shape = X.shape ∧ Y.Pos ∧ RanksLe Y.rank X.rank ∧
      (∀ k < X.rank.length, Y.rank.getD k 0 ≤ max 1 ((trimRanks X.shape (askedRanks X.shape a)).getD k 0)) ∧
      (∀ C ∈ Y.cores.tail, C.NearRightOrthogonal (2 * ε + ε ^ 2)) ∧
      ∀ Z : TT ℝ, Z.Valid → Z.shape = X.shape → RanksLe Z.rank (askedRanks X.shape a) →
        frobD X.toNumpy Y.toNumpy
          ≤ √ ((X.shape.length - 1 : ℕ) * frobD X.toNumpy Z.toNumpy ^ 2 + ((trimRanks X.shape (askedRanks X.shape a)).sum : ℝ)
              * (eps.getD 0 * ((1 + ε) ^ (4 * (X.shape.length - 1)) * frobN X.toNumpy)) ^ 2)
            + (X.shape.length - 1 : ℕ) * (5 + 3 * √ ((X.shape.length - 1 : ℕ) : ℝ)) * ε
              * (1 + ε) ^ (4 * (X.shape.length - 1)) * frobN X.toNumpy := by
  have hL : X.cores = X.cores.dropLast ++ [X.cores.getLast hX.1] := (List.dropLast_append_getLast hX.1).symm
  have hOP : List.Forall₂ (Partner ε) X.cores.dropLast X.cores.dropLast := by
    generalize X.cores.dropLast = l at ho
    induction l with
    | nil => exact .nil
    | cons C l ih =>
      exact .cons ⟨rfl, by rw [frobD_self]; exact hε, ho C List.mem_cons_self⟩ (ih fun D hD => ho D (List.mem_cons_of_mem _ hD))
  obtain ⟨rs, r1, r2, r3, -⟩ := round_ranks hX rfl (some a) (fun b hb => by injection hb with h; rw [← h]; exact hmr)
  obtain rfl := r3 a rfl
  obtain ⟨N, disc, n1, n2, n3, n4, n5, n6, n7, n8⟩ :=
    round_sweep hε hs hX hX hp hL hL hOP (eps.getD 0) he (trimRanks X.shape (askedRanks X.shape a))
  have hl : X.rank.length = X.shape.length - 1 := by have := rank_length hX; omega
  refine ⟨⟨N.reverse⟩, ?_, n2, n3, n4, n5, n6, n7, ?_⟩
  · unfold TT.round TT.roundTrace
    rw [if_pos rfl]
    dsimp only
    rw [r1]
    dsimp only
    rw [n1]; rfl
  · intro Z hZ hZs hZr
    obtain ⟨Z', z1, z2, z3, z4⟩ := C04 Z hZ _ hZr
    have h := n8 Z' z1 (by rw [z2, hZs]) (by rw [z3, hZs])
    rwa [z4, hl] at h

/-! ### Inexact routines -/

/-- Every exact routine is an inexact one. -/
theorem approxSvd_of_exact {la : LinAlg} (hs : la.SVDOk) {ε : ℝ} (hε : 0 ≤ ε) : la.SVDApprox ε := by
  intro M m n hM
  have h := hs M m n hM
  refine ⟨h.shapeU, h.shapeV, M, _, _, hM, h, ?_, ?_, ?_⟩
  · rw [frobD_self]; exact mul_nonneg hε (frobN_nonneg _)
  · rw [frobD_self]; exact hε
  · rw [frobD_self]; exact hε

/-- the QR factorisation of `badQr`, and a singular value decomposition with singular values too small by the factor `1 - ε` and
singular vectors off by `ε` in one entry -/
noncomputable def badLa (ε : ℝ) : LinAlg :=
  { badQr ε with svd := fun M =>
      (moveFirst ε (laChoice.svd M).1, (laChoice.svd M).2.1.map ((1 - ε) * ·), moveFirst ε (laChoice.svd M).2.2) }

theorem badLa_qr {ε : ℝ} (h0 : 0 ≤ ε) : (badLa ε).QRApprox ε := badQr_approx h0

theorem badLa_svd {ε : ℝ} (h0 : 0 ≤ ε) (h1 : ε ≤ 1) : (badLa ε).SVDApprox ε := by
  intro M m n hM
  have h := laChoice_svd M m n hM
  have hb : (badLa ε).svd M
      = (moveFirst ε (laChoice.svd M).1, (laChoice.svd M).2.1.map ((1 - ε) * ·), moveFirst ε (laChoice.svd M).2.2) := rfl
  rw [hb]
  generalize laChoice.svd M = USV at h
  obtain ⟨U, S, V⟩ := USV
  dsimp only at h ⊢
  have hg : ∀ t, (S.map ((1 - ε) * ·)).getD t 0 = (1 - ε) * S.getD t 0 := by
    intro t
    rcases lt_or_ge t S.length with ht | ht
    · rw [List.getD_eq_getElem _ _ (by simpa using ht), List.getD_eq_getElem _ _ ht, List.getElem_map]
    · rw [List.getD_eq_default _ _ (by simpa using ht), List.getD_eq_default _ _ ht, mul_zero]
  refine ⟨h.shapeU, h.shapeV, ND.ofFn [m, n] fun i => (1 - ε) * M.get i, U, V, rfl, ?_, ?_, moveFirst_dist h0 _, moveFirst_dist h0 _⟩
  · refine ⟨h.shapeU, h.shapeV, by rw [List.length_map, h.length], fun i hi j hj => ?_, h.orthU, h.orthV, fun t => ?_,
      fun s t hst => ?_⟩
    · rw [ND.ofFn_get (s := [m, n]) (i := [i, j]) ⟨hi, hj, trivial⟩, ← h.mul i hi j hj, mul_sum]
      exact sum_congr rfl fun t _ => by rw [hg]; ring
    · rw [hg]; exact mul_nonneg (by linarith) (h.nonneg t)
    · rw [hg, hg]; exact mul_le_mul_of_nonneg_left (h.antitone s t hst) (by linarith)
  · have e : distSq M (ND.ofFn [m, n] fun i => (1 - ε) * M.get i) = ε ^ 2 * normSq M := by
      unfold distSq normSq
      rw [sumIdx_eq_sum, sumIdx_eq_sum, mul_sum]
      refine sum_congr rfl fun i hi => ?_
      rw [ND.ofFn_get (by rw [← hM]; exact mem_idxSet.1 hi)]
      ring
    unfold frobD frobN
    rw [e, Real.sqrt_mul (sq_nonneg _), Real.sqrt_sq h0]

/-- the `2 × 3 × 2` train `x9`, rounded to rank `1` with routines that are off by `10⁻¹⁵` -/
example : (badLa (1 / 10 ^ 15)).QRApprox (1 / 10 ^ 15) ∧ (badLa (1 / 10 ^ 15)).SVDApprox (1 / 10 ^ 15) ∧ x9.Valid ∧ x9.Pos ∧
    (askedRanks x9.shape (.int 1)).length + 1 = x9.shape.length :=
  ⟨badLa_qr (by norm_num), badLa_svd (by norm_num) (by norm_num), x9_valid, x9_pos, rfl⟩

/-- a train with left-orthogonal cores but the last, as C94_orthogonalized asks for -/
example : ∃ X : TT ℝ, X.Valid ∧ X.Pos ∧ (∀ C ∈ X.cores.dropLast, C.LeftOrthogonal) ∧ X.shape = x9.shape := by
  obtain ⟨O, -, o2, o3, o4, -, -, o7⟩ := round_input laChoice_qr x9_valid x9_pos false
  exact ⟨O, o2, o3, o7 (by simp), o4⟩

end TTS.Props
