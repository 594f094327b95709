import Verif.Proofs.Round

/-! Quasi-optimality of the rounding sweep. -/

namespace TTS

open Finset

/-- `G` (with modes `sh` and a last index below `s`) splits after `mu + 1` modes into `m` products. -/
def SplitsAt (sh : List ℕ) (s : ℕ) (G : List ℕ → ℕ → ℝ) (mu m : ℕ) : Prop :=
  ∃ (f : List ℕ → ℕ → ℝ) (g : List ℕ → ℕ → ℕ → ℝ), ∀ p q y, p.length = mu + 1 → InR sh (p ++ q) → y < s →
    G (p ++ q) y = ∑ a ∈ range m, f p a * g q y a

/-- Squared distance of two functions of the modes and one more index. -/
def dist2 (sh : List ℕ) (s : ℕ) (F G : List ℕ → ℕ → ℝ) : ℝ :=
  ∑ y ∈ range s, sumIdx sh fun p => (F p y - G p y) ^ 2

/-- The tail left out by `keepRank`. -/
theorem keepRank_tail {M U V : ND ℝ} {S : List ℝ} {m n u v : ℕ} (h : IsSVD M U S V m n u v) (eps : ℝ) (he : 0 ≤ eps)
    (mr : ℕ) :
    ∑ t ∈ Ico (keepRank S eps mr) (min m n), S.getD t 0 ^ 2
      ≤ ∑ t ∈ Ico mr (min m n), S.getD t 0 ^ 2 + mr * (eps * S.getD 0 0) ^ 2 := by
  obtain ⟨k, hk⟩ : ∃ k, k = keepRank S eps mr := ⟨_, rfl⟩
  rw [← hk]
  have hS0 : 0 ≤ S.getD 0 0 := h.nonneg 0
  -- values at or beyond `k` are below the threshold, or `k` is at least `mr`
  by_cases hmr : mr ≤ k
  · have : ∑ t ∈ Ico k (min m n), S.getD t 0 ^ 2 ≤ ∑ t ∈ Ico mr (min m n), S.getD t 0 ^ 2 :=
      sum_le_sum_of_subset_of_nonneg (Ico_subset_Ico_left hmr) fun _ _ _ => sq_nonneg _
    have h2 : 0 ≤ (mr : ℝ) * (eps * S.getD 0 0) ^ 2 := by positivity
    linarith
  · have hcount : S.countP (fun s => decide (s > S.getD 0 0 * eps)) ≤ k := by
      rw [hk]; unfold keepRank
      rw [hk] at hmr
      unfold keepRank at hmr
      omega
    have hsmall : ∀ t, k ≤ t → t < S.length → S.getD t 0 ≤ eps * S.getD 0 0 := by
      intro t ht htl
      by_contra hgt
      have hgt : S.getD 0 0 * eps < S.getD t 0 := by rw [mul_comm]; exact not_le.1 hgt
      have hall : ∀ x ∈ S.take (t + 1), decide (x > S.getD 0 0 * eps) = true := by
        intro x hx
        obtain ⟨j, hj, rfl⟩ := List.mem_iff_getElem.1 hx
        rw [decide_eq_true_iff]
        rw [List.getElem_take]
        have hj' : j < t + 1 := by rw [List.length_take] at hj; omega
        have := h.antitone j t (by omega)
        rw [List.getD_eq_getElem S 0 (show j < S.length by omega)] at this
        linarith
      have h1 := List.countP_eq_length.2 hall
      rw [List.length_take, min_eq_left (by omega)] at h1
      have h2 : (S.take (t + 1)).countP (fun s => decide (s > S.getD 0 0 * eps))
          ≤ S.countP (fun s => decide (s > S.getD 0 0 * eps)) := (List.take_sublist _ _).countP_le
      omega
    have hsub : ∑ t ∈ Ico k (min m n), S.getD t 0 ^ 2
        ≤ ∑ t ∈ Ico k mr, (eps * S.getD 0 0) ^ 2 + ∑ t ∈ Ico mr (min m n), S.getD t 0 ^ 2 := by
      have hb : ∀ t, k ≤ t → S.getD t 0 ^ 2 ≤ (eps * S.getD 0 0) ^ 2 := by
        intro t ht
        by_cases htl : t < S.length
        · exact pow_le_pow_left₀ (h.nonneg t) (hsmall t ht htl) 2
        · rw [List.getD_eq_default _ _ (by omega)]; simp; positivity
      rcases le_total mr (min m n) with hle | hle
      · rw [← sum_Ico_consecutive _ (show k ≤ mr by omega) hle]
        have := sum_le_sum (s := Ico k mr) fun t ht => hb t (mem_Ico.1 ht).1
        linarith
      · rw [Ico_eq_empty (show ¬ mr < min m n by omega), sum_empty, add_zero]
        refine (sum_le_sum fun t ht => hb t (mem_Ico.1 ht).1).trans ?_
        exact sum_le_sum_of_subset_of_nonneg (Ico_subset_Ico_right hle) fun _ _ _ => sq_nonneg _
    refine hsub.trans ?_
    rw [sum_const, Nat.card_Ico, nsmul_eq_mul, add_comm]
    have : ((mr - k : ℕ) : ℝ) ≤ mr := by exact_mod_cast Nat.sub_le _ _
    have := mul_le_mul_of_nonneg_right this (sq_nonneg (eps * S.getD 0 0))
    linarith

namespace RoundStep
variable {C D : ND ℝ} {Ds : List (ND ℝ)} {U : ND ℝ} {S : List ℝ} {Vt US V : ND ℝ} {q m r n s k : ℕ}

theorem length_of_mem (h : RoundStep C D Ds U S Vt US V q m r n s k) {p : List ℕ}
    (hp : p ∈ idxSet (coreShape (D :: Ds)).reverse) : p.length = (D :: Ds).length := by
  rw [(mem_idxSet.1 hp).length, List.length_reverse, coreShape_length]

/-- A function of the modes, projected on the kept right singular vectors. -/
noncomputable def proj (Vt : ND ℝ) (n s : ℕ) (G : List ℕ → ℕ → ℝ) (p : List ℕ) (t : ℕ) : ℝ :=
  ∑ i ∈ range n, ∑ y ∈ range s, G (p ++ [i]) y * Vt.get [t, i * s + y]

/-- The input of the next step is the projection of the input of this one. -/
theorem next_eq_proj (h : RoundStep C D Ds U S Vt US V q m r n s k) {p : List ℕ} (hp : p.length = (D :: Ds).length)
    {t : ℕ} (ht : t < k) :
    revVal (ND.es_ijk_kl_ijl D US :: Ds) p t = proj Vt n s (revVal (C :: D :: Ds)) p t := by
  rw [h.next hp ht]
  have ht' : t < min r (n * s) := ht.trans_le h.kle
  have hV := h.orthV.mono (min_le_right r (n * s))
  have := hV.inner (fun u => left D Ds U r u p * S.getD u 0) (fun u => if u = t then 1 else 0)
  have e2 : ∀ f : ℕ → ℝ, ∑ u ∈ range (min r (n * s)), (if u = t then (1 : ℝ) else 0) * f u = f t := by
    intro f
    rw [sum_eq_single t]
    · simp
    · intro u _ hu; simp [hu]
    · intro hh; exact absurd (mem_range.2 ht') hh
  simp only [e2, mul_comm _ (ite _ _ _)] at this
  rw [← this, range_mul_sum]
  unfold proj
  refine sum_congr rfl fun i hi => sum_congr rfl fun y hy => ?_
  rw [h.val hp (by simpa using hi) (by simpa using hy)]

/-- Projecting does not increase distances. -/
theorem dist_proj (h : RoundStep C D Ds U S Vt US V q m r n s k) (F G : List ℕ → ℕ → ℝ) :
    dist2 (coreShape (D :: Ds)).reverse k (proj Vt n s F) (proj Vt n s G)
      ≤ dist2 (coreShape (C :: D :: Ds)).reverse s F G := by
  unfold dist2
  rw [sum_rev_cons h.hC]
  simp only [sumIdx_eq_sum]
  rw [sum_comm]
  refine sum_le_sum fun p _ => ?_
  have hb := (h.orthV.mono (h.kle.trans (min_le_right r (n * s)))).bessel
    (fun j => F (p ++ [j / s]) (j % s) - G (p ++ [j / s]) (j % s))
  rw [range_mul_sum] at hb
  have conv : ∀ i, ∀ y ∈ range s, (i * s + y) / s = i ∧ (i * s + y) % s = y := by
    intro i y hy
    have hy : y < s := by simpa using hy
    rw [mul_comm i s]
    exact ⟨by rw [Nat.mul_add_div (by omega), Nat.div_eq_of_lt hy, add_zero], by
      rw [Nat.mul_add_mod, Nat.mod_eq_of_lt hy]⟩
  have r1 : ∑ i ∈ range n, ∑ y ∈ range s, (F (p ++ [(i * s + y) / s]) ((i * s + y) % s)
      - G (p ++ [(i * s + y) / s]) ((i * s + y) % s)) ^ 2
      = ∑ i ∈ range n, ∑ y ∈ range s, (F (p ++ [i]) y - G (p ++ [i]) y) ^ 2 :=
    sum_congr rfl fun i _ => sum_congr rfl fun y hy => by rw [(conv i y hy).1, (conv i y hy).2]
  rw [r1] at hb
  refine le_trans (le_of_eq ?_) hb
  refine sum_congr rfl fun t _ => ?_
  congr 1
  rw [range_mul_sum]
  unfold proj
  rw [← sum_sub_distrib]
  refine sum_congr rfl fun i _ => ?_
  rw [← sum_sub_distrib]
  refine sum_congr rfl fun y hy => ?_
  rw [(conv i y hy).1, (conv i y hy).2]; ring

/-- Splittings survive the projection. -/
theorem splits_proj (h : RoundStep C D Ds U S Vt US V q m r n s k) {G : List ℕ → ℕ → ℝ} {mu w : ℕ}
    (hmu : mu < (D :: Ds).length)
    (hG : SplitsAt (coreShape (C :: D :: Ds)).reverse s G mu w) :
    SplitsAt (coreShape (D :: Ds)).reverse k (proj Vt n s G) mu w := by
  obtain ⟨f, g, hfg⟩ := hG
  refine ⟨f, fun q t a => ∑ i ∈ range n, ∑ y ∈ range s, g (q ++ [i]) y a * Vt.get [t, i * s + y], ?_⟩
  intro p q t hp hpq ht
  unfold proj
  have e : ∀ i ∈ range n, ∀ y ∈ range s, G (p ++ q ++ [i]) y * Vt.get [t, i * s + y]
      = ∑ a ∈ range w, f p a * (g (q ++ [i]) y a * Vt.get [t, i * s + y]) := by
    intro i hi y hy
    rw [List.append_assoc, hfg p (q ++ [i]) y hp ?_ (by simpa using hy), sum_mul]
    · exact sum_congr rfl fun a _ => by ring
    · rw [coreShape_cons, List.reverse_cons, (dim_of_shape3 h.hC).2.1, ← List.append_assoc]
      exact (inR_append hpq.length).2 ⟨hpq, (show InR [n] [i] from ⟨by simpa using hi, trivial⟩)⟩
  rw [sum_congr rfl fun i hi => sum_congr rfl fun y hy => e i hi y hy]
  rw [sum_congr rfl fun i _ => sum_comm, sum_comm]
  refine sum_congr rfl fun a _ => ?_
  simp only [mul_sum]

/-- The tail of the singular values beyond `w` is a lower bound for the distance to what splits into `w` products. -/
theorem tail_le (h : RoundStep C D Ds U S Vt US V q m r n s k) {G : List ℕ → ℕ → ℝ} {w : ℕ}
    (hG : SplitsAt (coreShape (C :: D :: Ds)).reverse s G Ds.length w) :
    ∑ t ∈ Ico w (min r (n * s)), S.getD t 0 ^ 2
      ≤ dist2 (coreShape (C :: D :: Ds)).reverse s (revVal (C :: D :: Ds)) G := by
  obtain ⟨f, g, hfg⟩ := hG
  have ey := eckart_young h.svd (min_le_left _ _) (min_le_right _ _) (r := w)
    (fun x a => ∑ p ∈ idxSet (coreShape (D :: Ds)).reverse, revVal (D :: Ds) p x * f p a)
    (fun a j => g [j / s] (j % s) a)
  refine ey.trans ?_
  unfold dist2
  rw [sum_rev_cons h.hC, sum_comm, range_mul_sum]
  have : ∀ i ∈ range n, ∀ y ∈ range s, ∑ x ∈ range r,
      ((C.reshape [r, n * s]).get [x, i * s + y] - ∑ a ∈ range w,
        (∑ p ∈ idxSet (coreShape (D :: Ds)).reverse, revVal (D :: Ds) p x * f p a)
          * g [(i * s + y) / s] ((i * s + y) % s) a) ^ 2
      ≤ ∑ p ∈ idxSet (coreShape (D :: Ds)).reverse, (revVal (C :: D :: Ds) (p ++ [i]) y - G (p ++ [i]) y) ^ 2 := by
    intro i hi y hy
    have hi : i < n := by simpa using hi
    have hy : y < s := by simpa using hy
    have c1 : (i * s + y) / s = i := by
      rw [mul_comm i s, Nat.mul_add_div (by omega), Nat.div_eq_of_lt hy, add_zero]
    have c2 : (i * s + y) % s = y := by rw [mul_comm i s, Nat.mul_add_mod, Nat.mod_eq_of_lt hy]
    rw [c1, c2]
    refine le_trans (le_of_eq ?_) (h.orthL.bessel fun p => revVal (C :: D :: Ds) (p ++ [i]) y - G (p ++ [i]) y)
    refine sum_congr rfl fun x hx => ?_
    have hx : x < r := by simpa using hx
    congr 1
    simp only [sub_mul, sum_sub_distrib]
    congr 1
    · -- the coefficient of the input
      have hin := h.orthL.inner (fun z => C.get [z, i, y]) (fun z => if z = x then 1 else 0)
      have e2 : ∀ f : ℕ → ℝ, ∑ u ∈ range r, (if u = x then (1 : ℝ) else 0) * f u = f x := by
        intro f
        rw [sum_eq_single x]
        · simp
        · intro u _ hu; simp [hu]
        · intro hh; exact absurd (mem_range.2 hx) hh
      simp only [e2, mul_comm _ (ite _ _ _)] at hin
      rw [ND.reshape_merge23 h.hC x i y hy, ← hin]
      refine sum_congr rfl fun p hp => ?_
      rw [revVal_cons h.hC h.chain (h.length_of_mem hp)]
      congr 1
      exact sum_congr rfl fun z _ => mul_comm _ _
    · simp only [sum_mul]
      rw [sum_comm]
      refine sum_congr rfl fun p hp => ?_
      rw [hfg p [i] y (by rw [h.length_of_mem hp]; rfl) ?_ hy, sum_mul]
      · exact sum_congr rfl fun a _ => by ring
      · rw [coreShape_cons, List.reverse_cons, (dim_of_shape3 h.hC).2.1]
        exact (inR_append (mem_idxSet.1 hp).length).2 ⟨mem_idxSet.1 hp, (show InR [n] [i] from ⟨hi, trivial⟩)⟩
  have h2 := sum_le_sum fun i hi => sum_le_sum fun y hy => this i hi y hy
  refine (le_of_eq ?_).trans (h2.trans (le_of_eq ?_))
  · rfl
  · rw [sum_congr rfl fun i _ => sum_comm, sum_comm]

/-- The largest singular value is at most the norm of the input. -/
theorem top_le (h : RoundStep C D Ds U S Vt US V q m r n s k) (hk : 1 ≤ k) :
    S.getD 0 0 ^ 2 ≤ dist2 (coreShape (C :: D :: Ds)).reverse s (revVal (C :: D :: Ds)) fun _ _ => 0 := by
  refine le_trans ?_ (h.tail_le (w := 0) ⟨fun _ _ => 0, fun _ _ _ => 0, fun p q y _ _ _ => by simp⟩)
  have := h.kle
  exact single_le_sum (f := fun t => S.getD t 0 ^ 2) (fun _ _ => sq_nonneg _) (mem_Ico.2 ⟨le_rfl, by omega⟩)

theorem dist_next (h : RoundStep C D Ds U S Vt US V q m r n s k) (G : List ℕ → ℕ → ℝ) :
    dist2 (coreShape (ND.es_ijk_kl_ijl D US :: Ds)).reverse k (revVal (ND.es_ijk_kl_ijl D US :: Ds)) (proj Vt n s G)
      ≤ dist2 (coreShape (C :: D :: Ds)).reverse s (revVal (C :: D :: Ds)) G := by
  refine le_trans (le_of_eq ?_) (h.dist_proj (revVal (C :: D :: Ds)) G)
  unfold dist2
  rw [h.shapeD']
  refine sum_congr rfl fun t ht => sumIdx_congr fun p hp => ?_
  rw [h.next_eq_proj (h.length_of_mem (mem_idxSet.2 hp)) (by simpa using ht)]

end RoundStep

/-- The sum of the squares left out, compared with the distances to functions that split well at one bond each. -/
theorem roundLoop_opt' {la : LinAlg} (hs : la.SVDOk) (eps : ℝ) (he : 0 ≤ eps) (mr : List ℕ) : ∀ (Cs : List (ND ℝ))
    (C : ND ℝ) (r n s : ℕ), C.shape = [r, n, s] → TTChain 1 Cs.reverse r → 0 < n → 0 < s →
    (∀ D ∈ C :: Cs, 0 < D.dim 0 ∧ 0 < D.dim 1) → (∀ D ∈ Cs, D.LeftOrthogonal) →
    ∀ N disc, TT.roundLoop la eps mr none (C :: Cs) = .ok (N, disc) →
    ∀ G : ℕ → List ℕ → ℕ → ℝ,
    (∀ mu < Cs.length, SplitsAt (coreShape (C :: Cs)).reverse s (G mu) mu (mr.getD mu 0)) →
      (disc.map sumSq).sum ≤ ∑ mu ∈ range Cs.length, dist2 (coreShape (C :: Cs)).reverse s (revVal (C :: Cs)) (G mu)
        + (∑ mu ∈ range Cs.length, (mr.getD mu 0 : ℝ))
          * (eps ^ 2 * dist2 (coreShape (C :: Cs)).reverse s (revVal (C :: Cs)) fun _ _ => 0)
  | [], C, r, n, s, hC, hCs, hn, hs0, hpos, hO, N, disc, h, G, hG => by
    have : ([C], []) = (N, disc) := by simpa [TT.roundLoop] using h
    cases this
    simp
  | D :: Ds, C, r, n, s, hC, hCs, hn, hs0, hpos, hO, N, disc, h, G, hG => by
    have hr : 0 < r := by have := (hpos C List.mem_cons_self).1; rwa [(dim_of_shape3 hC).1] at this
    rw [List.reverse_cons] at hCs
    obtain ⟨q, hD1, m, t, hD2, hD3⟩ := hCs.split
    cases hD3
    obtain ⟨U, S, Vt, k, US, V, hsvd, hk, hk1, hkl, hUS, hUSg, hV, hVg, hVo, hloop⟩ :=
      roundLoop_step hs eps mr D Ds hC hr hn hs0
    have hst : RoundStep C D Ds U S Vt US V q m r n s k := ⟨hC, hD2, hD1, hsvd, hkl, hUS, hUSg, hV, hVg, hO⟩
    have hDp := hpos D (by simp)
    rw [(dim_of_shape3 hD2).1, (dim_of_shape3 hD2).2.1] at hDp
    have hpos' : ∀ E ∈ ND.es_ijk_kl_ijl D US :: Ds, 0 < E.dim 0 ∧ 0 < E.dim 1 := by
      intro E hE
      rcases List.mem_cons.1 hE with rfl | hE
      · rw [(dim_of_shape3 hst.hD').1, (dim_of_shape3 hst.hD').2.1]; exact hDp
      · exact hpos E (by simp [hE])
    obtain ⟨N', disc', n1, -⟩ := roundLoop_shape hs eps mr Ds _ q m k hst.hD' hD1 hDp.2 hk1 hpos'
    have IH := roundLoop_opt' hs eps he mr Ds _ q m k hst.hD' hD1 hDp.2 hk1 hpos' (fun E hE => hO E (by simp [hE]))
      N' disc' n1 (fun mu => RoundStep.proj Vt n s (G mu)) (by
        intro mu hmu
        rw [hst.shapeD']
        exact hst.splits_proj (by simp; omega) (hG mu (by simp; omega)))
    have hND : (N, disc) = (V :: N', S.drop k :: disc') := by
      rw [hloop, n1] at h
      injection h with h
      exact h.symm
    obtain ⟨rfl, rfl⟩ := Prod.mk.inj hND
    rw [List.map_cons, List.sum_cons, sumSq_drop, hsvd.length]
    have tail := keepRank_tail hsvd eps he (mr.getD Ds.length 0)
    rw [← hk] at tail
    have ey := hst.tail_le (hG Ds.length (by simp))
    have top := hst.top_le hk1
    have dG : ∑ mu ∈ range Ds.length, dist2 (coreShape (ND.es_ijk_kl_ijl D US :: Ds)).reverse k
        (revVal (ND.es_ijk_kl_ijl D US :: Ds)) (RoundStep.proj Vt n s (G mu))
        ≤ ∑ mu ∈ range Ds.length, dist2 (coreShape (C :: D :: Ds)).reverse s (revVal (C :: D :: Ds)) (G mu) :=
      sum_le_sum fun mu _ => hst.dist_next (G mu)
    have d0 := hst.dist_next fun _ _ => 0
    have hz : RoundStep.proj Vt n s (fun _ _ => 0) = fun _ _ => 0 := by funext p t; simp [RoundStep.proj]
    rw [hz] at d0
    rw [List.length_cons, sum_range_succ, sum_range_succ]
    generalize dist2 (coreShape (C :: D :: Ds)).reverse s (revVal (C :: D :: Ds)) (fun _ _ => 0) = F at *
    have hsum : (0 : ℝ) ≤ ∑ mu ∈ range Ds.length, (mr.getD mu 0 : ℝ) := sum_nonneg fun _ _ => Nat.cast_nonneg _
    have i2 : eps ^ 2 * _ ≤ eps ^ 2 * F := mul_le_mul_of_nonneg_left d0 (sq_nonneg _)
    have i3 := mul_le_mul_of_nonneg_left i2 hsum
    have i4 : ((mr.getD Ds.length 0 : ℕ) : ℝ) * (eps * S.getD 0 0) ^ 2 ≤ (mr.getD Ds.length 0 : ℝ) * (eps ^ 2 * F) := by
      rw [mul_pow]
      exact mul_le_mul_of_nonneg_left (mul_le_mul_of_nonneg_left top (sq_nonneg _)) (Nat.cast_nonneg _)
    linarith

/-- The sum of the squares left out, compared with the distance to any function with small splittings. -/
theorem roundLoop_opt {la : LinAlg} (hs : la.SVDOk) (eps : ℝ) (he : 0 ≤ eps) (mr : List ℕ) (Cs : List (ND ℝ))
    (C : ND ℝ) (r n s : ℕ) (hC : C.shape = [r, n, s]) (hCs : TTChain 1 Cs.reverse r) (hn : 0 < n) (hs0 : 0 < s)
    (hpos : ∀ D ∈ C :: Cs, 0 < D.dim 0 ∧ 0 < D.dim 1) (hO : ∀ D ∈ Cs, D.LeftOrthogonal) (N : List (ND ℝ))
    (disc : List (List ℝ)) (h : TT.roundLoop la eps mr none (C :: Cs) = .ok (N, disc)) (G : List ℕ → ℕ → ℝ)
    (hG : ∀ mu < Cs.length, SplitsAt (coreShape (C :: Cs)).reverse s G mu (mr.getD mu 0)) :
    (disc.map sumSq).sum ≤ Cs.length * dist2 (coreShape (C :: Cs)).reverse s (revVal (C :: Cs)) G
      + (∑ mu ∈ range Cs.length, (mr.getD mu 0 : ℝ))
        * (eps ^ 2 * dist2 (coreShape (C :: Cs)).reverse s (revVal (C :: Cs)) fun _ _ => 0) := by
  have := roundLoop_opt' hs eps he mr Cs C r n s hC hCs hn hs0 hpos hO N disc h (fun _ => G) hG
  rwa [sum_const, card_range, nsmul_eq_mul] at this

end TTS
