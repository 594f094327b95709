import Verif.Proofs.FloatRound
import Verif.Props.FloatOrth
import Verif.Props.ApproxRound

/-!
# C105: rounding of tensor trains in floating point arithmetic

The QR and SVD routines are backward stable with relative error `ε`; every other operation is rounded with relative error `u`.
-/

namespace TTS.Props

open Finset TTS.Spec

theorem chain_dim2 : ∀ {Cs : List (ND ℝ)} {r s : ℕ}, TTChain r Cs s → ∀ D ∈ Cs.dropLast, ∃ E ∈ Cs.tail, E.dim 0 = D.dim 2
  | [], _, _, _, D, hD => by simp at hD
  | [C], _, _, _, D, hD => by simp at hD
  | C :: A :: As, _, _, ⟨n, t, hC, n', t', hA, hAs⟩, D, hD => by
    rw [List.dropLast_cons_of_ne_nil (by simp)] at hD
    rcases List.mem_cons.1 hD with rfl | hD
    · exact ⟨A, List.mem_cons_self, by rw [(dim_of_shape3 hA).1, (dim_of_shape3 hC).2.2]⟩
    · obtain ⟨E, hE, h⟩ := chain_dim2 (Cs := A :: As) ⟨n', t', hA, hAs⟩ D hD
      exact ⟨E, List.mem_cons_of_mem _ hE, h⟩

/-- The rounding sweep, with rounding errors, on a train `O` whose cores but the last are near the exactly orthogonal ones of a train `P`. -/
theorem fl_round_sweep {u : ℝ} (hu : 0 ≤ u) (hu1 : u ≤ 1) {la : LinAlg} {ε ρ : ℝ} {R : ℕ} (hε : 0 ≤ ε)
    (hρ : ε + (√ (R : ℝ) + ε) * flErr u (2 * R) ≤ ρ) (hs : la.SVDApprox ε) {O P : TT ℝ} {L : ND ℝ} (hO : O.Valid)
    (hP : P.Valid) (hpos : O.Pos) (hOL : O.cores = O.cores.dropLast ++ [L]) (hPL : P.cores = P.cores.dropLast ++ [L])
    (hOP : List.Forall₂ (Partner ε) O.cores.dropLast P.cores.dropLast) (eps : ℝ) (he : 0 ≤ eps) (mr : List ℕ)
    (hR : ∀ k ∈ O.rank, k ≤ R) {res : Except PyErr (List (ND ℝ))} (hres : TT.FlRoundLoop u la eps mr none O.cores.reverse res) :
    ∃ N, res = .ok N ∧ (TT.mk N.reverse).Valid ∧
      (TT.mk N.reverse).shape = O.shape ∧ (TT.mk N.reverse).Pos ∧ RanksLe (TT.mk N.reverse).rank O.rank ∧
      (∀ k < O.rank.length, (TT.mk N.reverse).rank.getD k 0 ≤ max 1 (mr.getD k 0)) ∧
      (∀ C ∈ N.reverse.tail, C.NearRightOrthogonal (2 * ε + ε ^ 2)) ∧
      (∀ Z : TT ℝ, Z.Valid → Z.shape = O.shape → Z.rank = mr →
        frobD P.toNumpy (TT.mk N.reverse).toNumpy
          ≤ √ (O.rank.length * frobD P.toNumpy Z.toNumpy ^ 2
            + (mr.sum : ℝ) * ((1 + u) * eps * ((1 + ρ) ^ (4 * O.rank.length) * frobN P.toNumpy)) ^ 2)
          + O.rank.length * (5 + 3 * √ (O.rank.length : ℝ)) * ρ * (1 + ρ) ^ (4 * O.rank.length) * frobN P.toNumpy) := by
  obtain ⟨C, Cs, r, n, hrev, hC, hCs, hdl⟩ := tt_reverse hO
  have hcores : O.cores = (C :: Cs).reverse := by rw [← hrev, List.reverse_reverse]
  have hCL : C = L := by
    rw [hOL, List.reverse_append] at hrev
    exact (List.cons.inj hrev).1.symm
  subst hCL
  have hOch : TTChain 1 O.cores 1 := hO.2
  obtain ⟨C', Cs', r', n', hrev', hC', hCs', hdl'⟩ := tt_reverse hP
  have hcores' : P.cores = (C' :: Cs').reverse := by rw [← hrev', List.reverse_reverse]
  have hCL' : C' = C := by
    rw [hPL, List.reverse_append] at hrev'
    exact (List.cons.inj hrev').1.symm
  subst hCL'
  have hrn : [r', n', 1] = [r, n, 1] := by rw [← hC, ← hC']
  simp only [List.cons.injEq, and_true] at hrn
  obtain ⟨rfl, rfl⟩ := hrn
  have hshape : (coreShape (C' :: Cs)).reverse = O.shape := by
    show _ = coreShape O.cores
    rw [hcores]; exact List.map_reverse.symm
  have hPP : List.Forall₂ (Partner ε) Cs Cs' := by
    rw [hdl, hdl'] at hOP
    simpa using forall2_reverse hOP
  have hshape' : (coreShape (C' :: Cs')).reverse = O.shape := by
    rw [← hshape, coreShape_cons, coreShape_cons, partner_coreShape hPP]
  have hPs : P.shape = O.shape := by
    rw [← hshape']
    show coreShape P.cores = _
    rw [hcores']; exact List.map_reverse
  have hpos' : ∀ D ∈ C' :: Cs, 0 < D.dim 0 ∧ 0 < D.dim 1 := by
    intro D hD
    have hD' : D ∈ O.cores := by rw [hcores]; exact List.mem_reverse.2 hD
    refine ⟨?_, hpos.1 _ (List.mem_map.2 ⟨D, hD', rfl⟩)⟩
    match hc : O.cores, hOch with
    | [], _ => rw [hc] at hD'; simp at hD'
    | A :: As, ⟨m, t, hA, _⟩ =>
      rw [hc] at hD'
      rcases List.mem_cons.1 hD' with rfl | hD'
      · rw [(dim_of_shape3 hA).1]; exact one_pos
      · exact hpos.2 _ (List.mem_map.2 ⟨D, by rw [hc]; exact hD', rfl⟩)
  have hn : 0 < n' := by have := (hpos' C' List.mem_cons_self).2; rwa [(dim_of_shape3 hC).2.1] at this
  have hdimR : ∀ D ∈ Cs, D.dim 2 ≤ R := by
    intro D hD
    have hDd : D ∈ O.cores.dropLast := by rw [hdl]; simpa using hD
    obtain ⟨E, hE, hED⟩ := chain_dim2 hOch D hDd
    rw [← hED]
    exact hR _ (List.mem_map.2 ⟨E, hE, rfl⟩)
  rw [hrev] at hres
  obtain ⟨N, rfl, n2, n3, n4, n5, n6, -, n8⟩ := flRoundLoop_approx hu hu1 hε hρ hs eps he mr Cs Cs' C' r' n' 1 hC hCs hCs' hPP hn
    one_pos hpos' hdimR _ hres
  have hOl : O.cores.length = Cs.length + 1 := by rw [hcores]; simp
  have hrl : O.rank.length = Cs.length := by simp [TT.rank, hOl]
  have hv : (TT.mk N.reverse).Valid := ⟨by
    intro h
    have := congrArg List.length (show N.reverse = [] from h)
    simp [n4] at this, n2⟩
  have hsh : (TT.mk N.reverse).shape = O.shape := by
    rw [← hshape, ← n3]; exact List.map_reverse
  have rk : ∀ (L : List (ND ℝ)) (k : ℕ), L.length = Cs.length + 1 → k < Cs.length →
      (TT.mk L.reverse).rank.getD k 0 = bondOf L (Cs.length - 1 - k) := by
    intro L k hL hk
    unfold TT.rank bondOf
    rw [getD_map_lt _ _ k (by simp [hL, hk]) (ND.zeros []), List.getD_eq_getElem?_getD, List.getElem?_tail,
      List.getElem?_reverse (by omega), ← List.getD_eq_getElem?_getD, hL]
    rw [show Cs.length + 1 - 1 - (k + 1) = Cs.length - 1 - k by omega]
  have hOmk : O = TT.mk (C' :: Cs).reverse := by rw [← hcores]
  have b : ∀ k < O.rank.length, 1 ≤ (TT.mk N.reverse).rank.getD k 0 ∧
      (TT.mk N.reverse).rank.getD k 0 ≤ max 1 (mr.getD k 0) ∧
      (TT.mk N.reverse).rank.getD k 0 ≤ O.rank.getD k 0 := by
    intro k hk
    rw [hrl] at hk
    obtain ⟨m1, m2, m3⟩ := n6 (Cs.length - 1 - k) (by omega)
    rw [show Cs.length - 1 - (Cs.length - 1 - k) = k by omega] at m2
    have e1 := rk N k n4 hk
    have e2 := rk (C' :: Cs) k rfl hk
    rw [← hOmk] at e2
    rw [e1, e2]
    exact ⟨m1, m2, m3⟩
  have hNrl : (TT.mk N.reverse).rank.length = Cs.length := by simp [TT.rank, n4]
  refine ⟨N, rfl, hv, hsh, ⟨by rw [hsh]; exact hpos.1, ?_⟩, ⟨by rw [hNrl, hrl], ?_⟩,
    fun k hk => (b k hk).2.1, ?_, ?_⟩
  · intro w hw
    obtain ⟨k, hk, rfl⟩ := List.mem_iff_getElem.1 hw
    have := (b k (by rw [hrl, ← hNrl]; exact hk)).1
    rw [List.getD_eq_getElem _ _ hk] at this
    omega
  · intro k hk
    exact (b k (by rw [hrl, ← hNrl]; exact hk)).2.2
  · intro D hD
    obtain ⟨a, n, k, h3⟩ := chain_shape3 n2 D (List.mem_of_mem_tail hD)
    have : N.reverse.tail = N.dropLast.reverse := by rw [List.tail_reverse]
    rw [this] at hD
    obtain ⟨D', hD'⟩ := n5 D (List.mem_reverse.1 hD)
    exact rightPartner_near hε h3 hD'
  · intro Z hZ hZs hZr
    have hml : mr.length = Cs.length := by
      have h1 := rank_length hZ
      rw [hZs, hZr] at h1
      have : O.shape.length = Cs.length + 1 := by simp [TT.shape, hOl]
      omega
    have h := n8 (fun p y => if y = 0 then Z.toNumpy.get p else 0) (by
      intro mu hmu
      have := splits_tt hZ (mu := mu) (by rw [hZr, hml]; exact hmu)
      rw [hZs, hZr] at this
      rw [hshape']; exact this)
    have e0 : ∀ p, revVal (C' :: Cs') p 0 = P.toNumpy.get p := by
      intro p; rw [TT.toNumpy_get hP, ttEntry, hcores']; rfl
    have eN : ∀ p, revVal N p 0 = (TT.mk N.reverse).toNumpy.get p := by
      intro p; rw [TT.toNumpy_get hv]; rfl
    have d0 : d2 (coreShape (C' :: Cs')).reverse 1 (revVal (C' :: Cs')) (revVal N)
        = frobD P.toNumpy (TT.mk N.reverse).toNumpy := by
      unfold d2 dist2 frobD distSq
      rw [sum_range_one, hshape', TT.toNumpy_shape hP, hPs]
      congr 1
      exact sumIdx_congr fun p _ => by rw [e0, eN]
    have d1 : d2 (coreShape (C' :: Cs')).reverse 1 (revVal (C' :: Cs')) (fun p y => if y = 0 then Z.toNumpy.get p else 0)
        = frobD P.toNumpy Z.toNumpy := by
      unfold d2 dist2 frobD distSq
      rw [sum_range_one, hshape', TT.toNumpy_shape hP, hPs]
      congr 1
      exact sumIdx_congr fun p _ => by rw [e0]; rfl
    have hc : frobN C' = frobN P.toNumpy := by
      have := orth_norm hP (partner_orth hOP)
      rw [hPL, List.getLastD_concat] at this
      unfold frobN; rw [this]
    have hsum : ∑ mu ∈ range Cs.length, (mr.getD mu 0 : ℝ) = (mr.sum : ℝ) := by rw [← hml]; exact list_sum_getD mr
    rw [d0, d1, hc, hsum] at h
    rw [hrl]; exact h

/-- **C105.** Let the QR and SVD routines be backward stable with relative error `ε`, and let every other operation be rounded with
relative error `u`.  Then for every tensor train `X` with `d` positive sizes and positive ranks, none above `R`, every tolerance
`τ ≥ 0` and every acceptable `max_rank`, every run of `X.round(eps=τ, max_rank)` returns a tensor train `Y` of the same shape, with
positive ranks at most those of `X` and those requested, whose cores but the first are right-orthogonal up to `2ε + ε²`, at the
distance of C94 with `ρ = ε + (√R + ε) ((1+u)^(2R) - 1)` in place of `ε` and `(1+u) τ` in place of `τ`. -/
theorem C105 {u ε ρ : ℝ} {R : ℕ} (hu : 0 ≤ u) (hu1 : u ≤ 1) (hε : 0 ≤ ε) {la : LinAlg} (hq : la.QRApprox ε)
    (hs : la.SVDApprox ε) {X : TT ℝ} (hX : X.Valid) (hp : X.Pos) (eps : Option ℝ) (he : 0 ≤ eps.getD 0) (a : RankArg)
    (hmr : (askedRanks X.shape a).length + 1 = X.shape.length) (hR1 : 1 ≤ R) (hR : ∀ k ∈ X.rank, k ≤ R) (hρ : ρ = ε + (√ (R : ℝ) + ε) * flErr u (2 * R)) {res : Except PyErr (TT ℝ)}
    (hres : X.FlRound u la eps (some a) false res) :
    ∃ Y, res = .ok Y ∧ Y.Valid ∧ Y.shape = X.shape ∧ Y.Pos ∧ RanksLe Y.rank X.rank ∧
      (∀ k < X.rank.length, Y.rank.getD k 0 ≤ max 1 ((trimRanks X.shape (askedRanks X.shape a)).getD k 0)) ∧
      (∀ C ∈ Y.cores.tail, C.NearRightOrthogonal (2 * ε + ε ^ 2)) ∧
      ∀ Z : TT ℝ, Z.Valid → Z.shape = X.shape → RanksLe Z.rank (askedRanks X.shape a) →
        frobD X.toNumpy Y.toNumpy
          ≤ √ ((X.shape.length - 1 : ℕ) * frobD X.toNumpy Z.toNumpy ^ 2 + ((trimRanks X.shape (askedRanks X.shape a)).sum : ℝ)
              * ((1 + u) * eps.getD 0 * ((1 + ρ) ^ (4 * (X.shape.length - 1)) * frobN X.toNumpy)) ^ 2)
            + (X.shape.length - 1 : ℕ) * (6 + 4 * √ ((X.shape.length - 1 : ℕ) : ℝ)
              + (1 + u) * eps.getD 0 * √ ((trimRanks X.shape (askedRanks X.shape a)).sum : ℝ)) * ρ
              * (1 + ρ) ^ (5 * (X.shape.length - 1)) * X.coreNorms := by
  obtain ⟨O', hO', hres⟩ := hres
  rw [if_neg (by simp)] at hO'
  have hs1 : (1 : ℝ) ≤ √ (R : ℝ) := by
    rw [show (1 : ℝ) = √ 1 from Real.sqrt_one.symm]
    exact Real.sqrt_le_sqrt (by exact_mod_cast hR1)
  have hη : 0 ≤ flErr u (2 * R) := sub_nonneg.2 (one_le_pow_u hu _)
  have hρ1 : ε + (1 + ε) * flErr u R ≤ ρ := by
    have h1 : flErr u R ≤ flErr u (2 * R) := sub_le_sub_right (pow_le_pow_right₀ (by linarith) (by omega)) 1
    have h2 : (1 + ε) * flErr u R ≤ (√ (R : ℝ) + ε) * flErr u (2 * R) :=
      mul_le_mul (by linarith) h1 (sub_nonneg.2 (one_le_pow_u hu _)) (by linarith)
    rw [hρ]; linarith
  have hρ0 : 0 ≤ ρ := by rw [hρ]; positivity
  obtain ⟨O, P, L, rfl, o2, p2, o3, p3, o4, p4, op, o5, o6, o7, -⟩ := fl_orth_approx hu hε hq hX hp hR hρ1 hO'
  obtain ⟨hOp, hOr⟩ := pos_of_recursion hX o2 hp o3 o5
  obtain ⟨rs, r1, r2, r3, -⟩ := round_ranks o2 o3 (some a) (fun b hb => by injection hb with h; rw [← h]; exact hmr)
  obtain rfl := r3 a rfl
  dsimp only at hres
  rw [r1] at hres
  dsimp only at hres
  obtain ⟨Ns, hNs, rfl⟩ := hres
  have hOR : ∀ k ∈ O.rank, k ≤ R := by
    intro k hk
    obtain ⟨i, hi, rfl⟩ := List.mem_iff_getElem.1 hk
    have h := hOr.2 i hi
    rw [List.getD_eq_getElem _ _ hi, List.getD_eq_getElem _ _ (by rw [← hOr.1]; exact hi)] at h
    exact h.trans (hR _ (List.getElem_mem _))
  obtain ⟨N, rfl, n2, n3, n4, n5, n6, n7, n8⟩ :=
    fl_round_sweep hu hu1 hε hρ.ge hs o2 p2 hOp o4 p4 op (eps.getD 0) he (trimRanks X.shape (askedRanks X.shape a)) hOR hNs
  have hl : O.rank.length = X.shape.length - 1 := by have := rank_length hX; have := hOr.1; omega
  refine ⟨⟨N.reverse⟩, rfl, n2, n3.trans o3, n4, ⟨n5.1.trans hOr.1, fun i hi => (n5.2 i hi).trans
    (hOr.2 i (by rw [← n5.1]; exact hi))⟩, fun k hk => n6 k (by rw [hOr.1]; exact hk), n7, ?_⟩
  · intro Z hZ hZs hZr
    obtain ⟨Z', z1, z2, z3, z4⟩ := C04 Z hZ _ hZr
    have h := n8 Z' z1 (by rw [z2, hZs, o3]) (by rw [z3, hZs])
    rw [z4, hl] at h
    have sP : P.toNumpy.shape = X.toNumpy.shape := by rw [TT.toNumpy_shape p2, TT.toNumpy_shape hX, p3]
    have hnL : frobN L = frobN P.toNumpy := by
      have := orth_norm p2 (partner_orth op)
      rw [p4, List.getLastD_concat] at this
      unfold frobN; rw [this]
    rw [hnL] at o6
    refine (frobD_triangle sP).trans (round_total (X.shape.length - 1) hρ0 (by positivity) (Nat.cast_nonneg _) (frobD_nonneg _ _)
      (frobD_nonneg _ _) (frobN_nonneg _) (frobN_nonneg _) (frobD_nonneg _ _) ?_ (frobN_le sP) o6 o7 h)
    have := frobD_triangle (A := P.toNumpy) (B := X.toNumpy) (C := Z.toNumpy) sP.symm
    rw [frobD_symm sP]; linarith

/-- **C105, tolerance only.** Without a maximal rank, the error is at most `(1+u) τ √S (1+ρ)^(4(d-1)) ‖X‖`, with `S` the sum of the
ranks of `X`, plus a multiple of `ρ` times the product of the norms of the cores. -/
theorem C105_tolerance {u ε ρ : ℝ} {R : ℕ} (hu : 0 ≤ u) (hu1 : u ≤ 1) (hε : 0 ≤ ε) {la : LinAlg} (hq : la.QRApprox ε)
    (hs : la.SVDApprox ε) {X : TT ℝ} (hX : X.Valid) (hp : X.Pos) (eps : Option ℝ) (he : 0 ≤ eps.getD 0)
    (hR1 : 1 ≤ R) (hR : ∀ k ∈ X.rank, k ≤ R) (hρ : ρ = ε + (√ (R : ℝ) + ε) * flErr u (2 * R)) {res : Except PyErr (TT ℝ)}
    (hres : X.FlRound u la eps none false res) :
    ∃ Y, res = .ok Y ∧ Y.Valid ∧ Y.shape = X.shape ∧ Y.Pos ∧ RanksLe Y.rank X.rank ∧
      (∀ C ∈ Y.cores.tail, C.NearRightOrthogonal (2 * ε + ε ^ 2)) ∧
      frobD X.toNumpy Y.toNumpy
          ≤ (1 + u) * eps.getD 0 * √ (X.rank.sum : ℝ) * ((1 + ρ) ^ (4 * (X.shape.length - 1)) * frobN X.toNumpy)
            + (X.shape.length - 1 : ℕ) * (6 + 4 * √ ((X.shape.length - 1 : ℕ) : ℝ)
              + (1 + u) * eps.getD 0 * √ (X.rank.sum : ℝ)) * ρ
              * (1 + ρ) ^ (5 * (X.shape.length - 1)) * X.coreNorms := by
  obtain ⟨O', hO', hres⟩ := hres
  rw [if_neg (by simp)] at hO'
  have hs1 : (1 : ℝ) ≤ √ (R : ℝ) := by
    rw [show (1 : ℝ) = √ 1 from Real.sqrt_one.symm]
    exact Real.sqrt_le_sqrt (by exact_mod_cast hR1)
  have hη : 0 ≤ flErr u (2 * R) := sub_nonneg.2 (one_le_pow_u hu _)
  have hρ1 : ε + (1 + ε) * flErr u R ≤ ρ := by
    have h1 : flErr u R ≤ flErr u (2 * R) := sub_le_sub_right (pow_le_pow_right₀ (by linarith) (by omega)) 1
    have h2 : (1 + ε) * flErr u R ≤ (√ (R : ℝ) + ε) * flErr u (2 * R) :=
      mul_le_mul (by linarith) h1 (sub_nonneg.2 (one_le_pow_u hu _)) (by linarith)
    rw [hρ]; linarith
  have hρ0 : 0 ≤ ρ := by rw [hρ]; positivity
  obtain ⟨O, P, L, rfl, o2, p2, o3, p3, o4, p4, op, o5, o6, o7, -⟩ := fl_orth_approx hu hε hq hX hp hR hρ1 hO'
  obtain ⟨hOp, hOr⟩ := pos_of_recursion hX o2 hp o3 o5
  obtain ⟨rs, r1, r2, -, r3⟩ := round_ranks o2 o3 none (fun b hb => by cases hb)
  obtain rfl := r3 rfl
  dsimp only at hres
  rw [r1] at hres
  dsimp only at hres
  obtain ⟨Ns, hNs, rfl⟩ := hres
  have hOR : ∀ k ∈ O.rank, k ≤ R := by
    intro k hk
    obtain ⟨i, hi, rfl⟩ := List.mem_iff_getElem.1 hk
    have h := hOr.2 i hi
    rw [List.getD_eq_getElem _ _ hi, List.getD_eq_getElem _ _ (by rw [← hOr.1]; exact hi)] at h
    exact h.trans (hR _ (List.getElem_mem _))
  obtain ⟨N, rfl, n2, n3, n4, n5, n6, n7, n8⟩ :=
    fl_round_sweep hu hu1 hε hρ.ge hs o2 p2 hOp o4 p4 op (eps.getD 0) he (trimRanks X.shape O.rank) hOR hNs
  have hl : O.rank.length = X.shape.length - 1 := by have := rank_length hX; have := hOr.1; omega
  refine ⟨⟨N.reverse⟩, rfl, n2, n3.trans o3, n4, ⟨n5.1.trans hOr.1, fun i hi => (n5.2 i hi).trans
    (hOr.2 i (by rw [← n5.1]; exact hi))⟩, n7, ?_⟩
  · have hPr : P.rank = O.rank := by
      have hd : List.Forall₂ (Partner ε) O.cores.dropLast P.cores.dropLast := op
      have gen : ∀ {l m : List (ND ℝ)}, List.Forall₂ (Partner ε) l m →
          (m ++ [L]).map (fun C => C.dim 0) = (l ++ [L]).map fun C => C.dim 0 := by
        intro l m h
        induction h with
        | nil => rfl
        | cons h _ ih =>
          simp only [List.cons_append, List.map_cons, ih]
          unfold ND.dim
          rw [h.1]
      have := gen hd
      rw [← o4, ← p4] at this
      unfold TT.rank
      rw [List.map_tail, List.map_tail, this]
    obtain ⟨Z', z1, z2, z3, z4⟩ := C04_self P p2
    have h := n8 Z' z1 (by rw [z2, p3, o3]) (by rw [z3, p3, hPr])
    rw [z4, hl, frobD_self] at h
    have hsum : ((trimRanks X.shape O.rank).sum : ℝ) ≤ (X.rank.sum : ℝ) := by
      have hl : (trimRanks X.shape O.rank).length = X.rank.length := by rw [trimRanks_length _ _ r2, hOr.1]
      rw [← list_sum_getD, ← list_sum_getD, hl]
      refine sum_le_sum fun i hi => ?_
      have hi' : i < O.rank.length := by rw [hOr.1]; exact mem_range.1 hi
      exact_mod_cast (C02 X.shape O.rank r2 i hi').2.1.trans (hOr.2 i hi')
    have h' : frobD P.toNumpy (TT.mk N.reverse).toNumpy ≤ √ ((X.shape.length - 1 : ℕ) * (0 : ℝ) ^ 2 + (X.rank.sum : ℝ)
        * ((1 + u) * eps.getD 0 * ((1 + ρ) ^ (4 * (X.shape.length - 1)) * frobN P.toNumpy)) ^ 2)
        + (X.shape.length - 1 : ℕ) * (5 + 3 * √ ((X.shape.length - 1 : ℕ) : ℝ)) * ρ * (1 + ρ) ^ (4 * (X.shape.length - 1))
          * frobN P.toNumpy :=
      h.trans (add_le_add (Real.sqrt_le_sqrt (add_le_add le_rfl (mul_le_mul_of_nonneg_right hsum (sq_nonneg _)))) le_rfl)
    have sP : P.toNumpy.shape = X.toNumpy.shape := by rw [TT.toNumpy_shape p2, TT.toNumpy_shape hX, p3]
    have hnL : frobN L = frobN P.toNumpy := by
      have := orth_norm p2 (partner_orth op)
      rw [p4, List.getLastD_concat] at this
      unfold frobN; rw [this]
    rw [hnL] at o6
    have t := round_total (X.shape.length - 1) hρ0 (by positivity) (Nat.cast_nonneg _) (frobD_nonneg _ _) le_rfl
      (frobN_nonneg X.toNumpy) (frobN_nonneg _) le_rfl (by rw [zero_add]; exact frobD_nonneg X.toNumpy P.toNumpy)
      (frobN_le sP) o6 o7 h'
    refine (frobD_triangle sP).trans (t.trans (add_le_add (le_of_eq ?_) le_rfl))
    have h0 : 0 ≤ (1 + ρ) ^ (4 * (X.shape.length - 1)) * frobN X.toNumpy := mul_nonneg (by positivity) (frobN_nonneg _)
    rw [show ((X.shape.length - 1 : ℕ) : ℝ) * (0 : ℝ) ^ 2 = 0 by ring, zero_add, Real.sqrt_mul (Nat.cast_nonneg _),
      Real.sqrt_sq (mul_nonneg (by positivity) h0)]
    ring

/-- **C105, `orthogonalized=True`.** If the cores but the last are left-orthogonal and the caller says so, the norm of `X` takes
the place of the product of the norms of the cores, and the QR routine plays no part. -/
theorem C105_orthogonalized {u ε ρ : ℝ} {R : ℕ} (hu : 0 ≤ u) (hu1 : u ≤ 1) (hε : 0 ≤ ε) {la : LinAlg}
    (hs : la.SVDApprox ε) {X : TT ℝ} (hX : X.Valid) (hp : X.Pos) (ho : ∀ C ∈ X.cores.dropLast, C.LeftOrthogonal)
    (eps : Option ℝ) (he : 0 ≤ eps.getD 0) (a : RankArg) (hmr : (askedRanks X.shape a).length + 1 = X.shape.length)
    (hR : ∀ k ∈ X.rank, k ≤ R) (hρ : ρ = ε + (√ (R : ℝ) + ε) * flErr u (2 * R)) {res : Except PyErr (TT ℝ)}
    (hres : X.FlRound u la eps (some a) true res) :
    ∃ Y, res = .ok Y ∧ Y.Valid ∧ Y.shape = X.shape ∧ Y.Pos ∧ RanksLe Y.rank X.rank ∧
      (∀ k < X.rank.length, Y.rank.getD k 0 ≤ max 1 ((trimRanks X.shape (askedRanks X.shape a)).getD k 0)) ∧
      (∀ C ∈ Y.cores.tail, C.NearRightOrthogonal (2 * ε + ε ^ 2)) ∧
      ∀ Z : TT ℝ, Z.Valid → Z.shape = X.shape → RanksLe Z.rank (askedRanks X.shape a) →
        frobD X.toNumpy Y.toNumpy
          ≤ √ ((X.shape.length - 1 : ℕ) * frobD X.toNumpy Z.toNumpy ^ 2 + ((trimRanks X.shape (askedRanks X.shape a)).sum : ℝ)
              * ((1 + u) * eps.getD 0 * ((1 + ρ) ^ (4 * (X.shape.length - 1)) * frobN X.toNumpy)) ^ 2)
            + (X.shape.length - 1 : ℕ) * (5 + 3 * √ ((X.shape.length - 1 : ℕ) : ℝ)) * ρ
              * (1 + ρ) ^ (4 * (X.shape.length - 1)) * frobN X.toNumpy := by
  obtain ⟨O', hO', hres⟩ := hres
  rw [if_pos rfl] at hO'
  subst hO'
  have hL : X.cores = X.cores.dropLast ++ [X.cores.getLast hX.1] := (List.dropLast_append_getLast hX.1).symm
  have hOP : List.Forall₂ (Partner ε) X.cores.dropLast X.cores.dropLast := by
    generalize X.cores.dropLast = l at ho
    induction l with
    | nil => exact .nil
    | cons C l ih =>
      exact .cons ⟨rfl, by rw [frobD_self]; exact hε, ho C List.mem_cons_self⟩ (ih fun D hD => ho D (List.mem_cons_of_mem _ hD))
  obtain ⟨rs, r1, r2, r3, -⟩ := round_ranks hX rfl (some a) (fun b hb => by injection hb with h; rw [← h]; exact hmr)
  obtain rfl := r3 a rfl
  dsimp only at hres
  rw [r1] at hres
  dsimp only at hres
  obtain ⟨Ns, hNs, rfl⟩ := hres
  obtain ⟨N, rfl, n2, n3, n4, n5, n6, n7, n8⟩ :=
    fl_round_sweep hu hu1 hε hρ.ge hs hX hX hp hL hL hOP (eps.getD 0) he (trimRanks X.shape (askedRanks X.shape a)) hR hNs
  have hl : X.rank.length = X.shape.length - 1 := by have := rank_length hX; omega
  refine ⟨⟨N.reverse⟩, rfl, n2, n3, n4, n5, n6, n7, ?_⟩
  · intro Z hZ hZs hZr
    obtain ⟨Z', z1, z2, z3, z4⟩ := C04 Z hZ _ hZr
    have h := n8 Z' z1 (by rw [z2, hZs]) (by rw [z3, hZs])
    rwa [z4, hl] at h

theorem flRoundLoop_exact {u : ℝ} (hu : 0 ≤ u) (la : LinAlg) (eps : ℝ) (mr : List ℕ) : ∀ (US : Option (ND ℝ)) (Cs : List (ND ℝ)),
    TT.FlRoundLoop u la eps mr US Cs ((TT.roundLoop la eps mr US Cs).map Prod.fst)
  | _, [] => rfl
  | US, [C] => by
    cases US with
    | none => exact ⟨C, rfl, rfl⟩
    | some US => exact ⟨_, FlEinsum.exact hu _ (by simp) _, rfl⟩
  | US, C :: D :: Ds => by
    have key : ∀ C' : ND ℝ, (match US with
        | none => C' = C
        | some US => FlEinsum u [([.i, .j, .k], C), ([.k, .l], US)] [.i, .j, .l] C') →
        TT.roundLoop la eps mr US (C :: D :: Ds) = TT.roundLoop la eps mr none (C' :: D :: Ds) →
        TT.FlRoundLoop u la eps mr US (C :: D :: Ds) ((TT.roundLoop la eps mr US (C :: D :: Ds)).map Prod.fst) := by
      intro C' h e
      refine ⟨C', h, 0, _, by simpa using hu, FlMatmul.exact hu _ _, ?_⟩
      rw [e]
      unfold TT.roundLoop
      dsimp only
      rw [add_zero, mul_one]
      generalize la.svd (C'.reshape [C'.dim 0, C'.dim 1 * C'.dim 2]) = USV
      by_cases hS : USV.2.1 = []
      · rw [if_pos hS, if_pos hS]; rfl
      · rw [if_neg hS, if_neg hS]
        generalize keepRank USV.2.1 eps (mr.getD Ds.length 0) = r
        cases hV : (USV.2.2.rows 0 r).reshape? [r, C'.dim 1, C'.dim 2] with
        | error e => rfl
        | ok V =>
          refine ⟨_, flRoundLoop_exact hu la eps mr (some ((USV.1.cols 0 r).matmul (ND.diag (USV.2.1.take r)))) (D :: Ds), ?_⟩
          dsimp only
          cases TT.roundLoop la eps mr (some ((USV.1.cols 0 r).matmul (ND.diag (USV.2.1.take r)))) (D :: Ds) <;> rfl
    cases US with
    | none => exact key C rfl rfl
    | some US => exact key (ND.es_ijk_kl_ijl C US) (FlEinsum.exact hu _ (by simp) _) rfl

/-- **C105, the routines of the code.** Exact arithmetic is one of the runs, for every unit roundoff. -/
theorem C105_runs {u : ℝ} (hu : 0 ≤ u) (la : LinAlg) (X : TT ℝ) (eps : Option ℝ) (maxRank : Option RankArg) (orthogonalized : Bool) :
    X.FlRound u la eps maxRank orthogonalized (X.round la eps maxRank orthogonalized) := by
  refine ⟨if orthogonalized then .ok X else X.orthogonalize la, ?_, ?_⟩
  · cases orthogonalized
    · exact (C104_runs hu la X).1
    · rfl
  · unfold TT.round TT.roundTrace
    generalize (if orthogonalized then Except.ok X else X.orthogonalize la) = O
    cases O with
    | error e => rfl
    | ok tt =>
      dsimp only
      generalize processTTRank (maxRank.getD (.seq tt.rank)) tt.shape true = q
      cases q with
      | error e => rfl
      | ok mr =>
        refine ⟨_, flRoundLoop_exact hu la (eps.getD 0) mr none tt.cores.reverse, ?_⟩
        dsimp only
        cases TT.roundLoop la (eps.getD 0) mr none tt.cores.reverse <;> rfl

/-- the hypotheses, with routines off by `10⁻¹⁵`, a unit roundoff of `10⁻¹⁶` and the train of C93, rounded to rank `1` -/
example : (badLa (1 / 10 ^ 15)).QRApprox (1 / 10 ^ 15) ∧ (badLa (1 / 10 ^ 15)).SVDApprox (1 / 10 ^ 15) ∧ x9.Valid ∧ x9.Pos ∧
    (askedRanks x9.shape (.int 1)).length + 1 = x9.shape.length ∧ (∀ k ∈ x9.rank, k ≤ max 1 (x9.rank.foldr max 0)) ∧
    x9.FlRound (1 / 10 ^ 16) (badLa (1 / 10 ^ 15)) (some (1 / 10)) (some (.int 1)) false
      (x9.round (badLa (1 / 10 ^ 15)) (some (1 / 10)) (some (.int 1)) false) :=
  ⟨badLa_qr (by norm_num), badLa_svd (by norm_num) (by norm_num), x9_valid, x9_pos, rfl,
    fun _ hk => (le_foldr_max hk).trans (le_max_right _ _), C105_runs (by norm_num) _ _ _ _ _⟩

/-- a run on a train with left-orthogonal cores but the last, as C105_orthogonalized asks for -/
example : ∃ X : TT ℝ, X.Valid ∧ X.Pos ∧ (∀ C ∈ X.cores.dropLast, C.LeftOrthogonal) ∧ X.shape = x9.shape ∧
    ∃ res, X.FlRound (1 / 10 ^ 16) (badLa (1 / 10 ^ 15)) none (some (.int 1)) true res := by
  obtain ⟨O, -, o2, o3, o4, -, -, o7⟩ := round_input laChoice_qr x9_valid x9_pos false
  exact ⟨O, o2, o3, o7 (by simp), o4, _, C105_runs (by norm_num) _ _ _ _ _⟩

end TTS.Props
