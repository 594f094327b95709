import Verif.Proofs.Weyl
import Verif.Proofs.ApproxRound

/-! The sweep of `svdvals` with an inexact SVD. -/

namespace TTS

open Finset TTS.Spec

/-- The tensor with partial products `F` and right vectors `W`. -/
noncomputable def gOf (l s : ℕ) (F : List ℕ → ℕ → ℝ) (W : ℕ → List ℕ → ℝ) (i : List ℕ) : ℝ :=
  ∑ y ∈ range s, F (i.take l) y * W y (i.drop l)

theorem gOf_append {l s : ℕ} {F : List ℕ → ℕ → ℝ} {W : ℕ → List ℕ → ℝ} {p q : List ℕ} (hp : p.length = l) :
    gOf l s F W (p ++ q) = ∑ y ∈ range s, F p y * W y q := by
  unfold gOf
  rw [← hp, List.take_left, List.drop_left]

theorem fdist_gOf {sh rs : List ℕ} {s : ℕ} {W : ℕ → List ℕ → ℝ} (hW : Orthn (idxSet rs) s W) {f g : List ℕ → ℝ}
    {F G : List ℕ → ℕ → ℝ} (hf : ∀ p q, InR sh p → InR rs q → f (p ++ q) = ∑ y ∈ range s, F p y * W y q)
    (hg : ∀ p q, InR sh p → InR rs q → g (p ++ q) = ∑ y ∈ range s, G p y * W y q) :
    fdist (sh ++ rs) f g = d2 sh s F G := by
  rw [fdist_append]
  unfold d2 dist2
  congr 1
  simp only [sumIdx_eq_sum]
  rw [sum_comm (s := range s)]
  refine sum_congr rfl fun p hp => ?_
  rw [← hW.parseval fun y => F p y - G p y]
  refine sum_congr rfl fun q hq => ?_
  rw [hf p q (mem_idxSet.1 hp) (mem_idxSet.1 hq), hg p q (mem_idxSet.1 hp) (mem_idxSet.1 hq), ← sum_sub_distrib]
  congr 1
  exact sum_congr rfl fun y _ => by ring

/-- One step of the sweep with an inexact SVD, compared with an exact step. -/
theorem approxSvStep {ε : ℝ} (hε : 0 ≤ ε) {C D D' : ND ℝ} {Ds' : List (ND ℝ)} {U Vt US : ND ℝ} {S : List ℝ}
    {q m r n s : ℕ} (hC : C.shape = [r, n, s]) (hD : D.shape = [q, m, r]) (hp : Partner ε D D')
    (hDs' : TTChain 1 Ds'.reverse q) (ho : ∀ E ∈ Ds', E.LeftOrthogonal)
    (h : IsApproxSVD ε (C.reshape [r, n * s]) U S Vt r (n * s) r (n * s)) (hr : r ≤ n * s)
    (hUS : US.shape = [r, r]) (hUSg : ∀ x, ∀ t < r, US.get [x, t] = U.get [x, t] * S.getD t 0) :
    ∃ B U' Vt' US' V', RoundStep B D' Ds' U' S Vt' US' V' q m r n s r ∧ frobD C B ≤ ε * frobN C ∧
      frobD (ND.es_ijk_kl_ijl D US) (ND.es_ijk_kl_ijl D' US') ≤ ε * (1 + ε) * (2 + ε) * frobN C ∧
      frobN (ND.es_ijk_kl_ijl D US) ≤ (1 + ε) ^ 3 * frobN C := by
  obtain ⟨hU, hVt, M', U', Vt', hM's, hsvd, e1, e2, e3⟩ := h
  obtain ⟨hp1, hp2, hp3⟩ := hp
  have hD' : D'.shape = [q, m, r] := hp1.trans hD
  have hkl : r ≤ min r (n * s) := by omega
  obtain ⟨B, hB⟩ : ∃ B, B = M'.reshape [r, n, s] := ⟨_, rfl⟩
  have hpr : ([r, n, s] : List ℕ).prod = M'.shape.prod := by rw [hM's]; simp
  have hBs : B.shape = [r, n, s] := by rw [hB]; rfl
  have hBM : B.reshape [r, n * s] = M' := by
    rw [hB, ND.reshape_reshape hpr (by rw [hM's]), ← hM's, ND.reshape_self]
  rw [← hBM] at hsvd
  have hprC : ([r, n * s] : List ℕ).prod = C.shape.prod := by rw [hC]; simp
  obtain ⟨c, hc⟩ : ∃ c, c = frobN C := ⟨_, rfl⟩
  have hc0 : 0 ≤ c := by rw [hc]; exact frobN_nonneg _
  have hCB : frobD C B ≤ ε * c := by
    have : frobD (C.reshape [r, n * s]) (B.reshape [r, n * s]) = frobD C B := frobD_reshape (by rw [hBs, hC]) hprC
    rw [← this, hBM, hc, ← frobN_reshape hprC]; exact e1
  have hBn : frobN B ≤ (1 + ε) * c := by
    have := frobN_le (A := C) (B := B) (by rw [hBs, hC])
    rw [← hc] at this; linarith
  obtain ⟨US', hUS'⟩ : ∃ W, W = ND.ofFn [r, r] fun i => U'.get [i.getD 0 0, i.getD 1 0] * S.getD (i.getD 1 0) 0 := ⟨_, rfl⟩
  obtain ⟨V', hV'⟩ : ∃ W, W = ND.ofFn [r, n, s] fun i => Vt'.get [i.getD 0 0, i.getD 1 0 * s + i.getD 2 0] := ⟨_, rfl⟩
  have hUS's : US'.shape = [r, r] := by rw [hUS']; rfl
  have hV's : V'.shape = [r, n, s] := by rw [hV']; rfl
  have hUS'g : ∀ x, ∀ t < r, US'.get [x, t] = U'.get [x, t] * S.getD t 0 := by
    intro x t ht
    by_cases hx : x < r
    · rw [hUS', ND.ofFn_get (s := [r, r]) (i := [x, t]) ⟨hx, ht, trivial⟩]; rfl
    · rw [ND.supp US' _ (fun hi => hx (by rw [hUS's] at hi; exact hi.1)),
        ND.supp U' _ (fun hi => hx (by rw [hsvd.shapeU] at hi; exact hi.1)), zero_mul]
  have hV'g : ∀ t < r, ∀ i < n, ∀ y < s, V'.get [t, i, y] = Vt'.get [t, i * s + y] := by
    intro t ht i hi y hy
    rw [hV', ND.ofFn_get (s := [r, n, s]) (i := [t, i, y]) ⟨ht, hi, hy, trivial⟩]; rfl
  have hoall : ∀ E ∈ D' :: Ds', E.LeftOrthogonal := by
    intro E hE
    rcases List.mem_cons.1 hE with rfl | hE
    exacts [hp3, ho E hE]
  have st : RoundStep B D' Ds' U' S Vt' US' V' q m r n s r :=
    ⟨hBs, hD', hDs', hsvd, hkl, hUS's, hUS'g, hV's, hV'g, hoall⟩
  have hsum := hsvd.sum_sq (min_le_left _ _) (min_le_right _ _)
  rw [hBM, ← frobN_mat hM's] at hsum
  have hM'B : frobN M' = frobN B := by rw [hB, frobN_reshape hpr]
  rw [hM'B] at hsum
  have hS : S.getD 0 0 ≤ (1 + ε) * c := by
    by_cases h0 : 0 < r
    · refine (abs_le_of_sq_le_sq' (a := S.getD 0 0) (b := (1 + ε) * c) ?_ (by positivity)).2
      have h2 : S.getD 0 0 ^ 2 ≤ ∑ t ∈ range (min r (n * s)), S.getD t 0 ^ 2 :=
        single_le_sum (f := fun t => S.getD t 0 ^ 2) (fun _ _ => sq_nonneg _) (mem_range.2 (by omega))
      rw [← hsum] at h2
      exact h2.trans (pow_le_pow_left₀ (frobN_nonneg _) hBn 2)
    · rw [List.getD_eq_default _ _ (by rw [hsvd.length]; omega)]; positivity
  have hS0 := hsvd.nonneg 0
  have hUSn : frobN US' ≤ (1 + ε) * c := by
    refine le_of_sq_le_sq ?_ (by positivity)
    rw [frobN_mat hUS's, sum_comm]
    have : ∀ t ∈ range r, ∑ x ∈ range r, US'.get [x, t] ^ 2 = S.getD t 0 ^ 2 := by
      intro t ht
      have ht : t < r := by simpa using ht
      have ho := hsvd.orthU t (by omega) t (by omega)
      rw [if_pos rfl] at ho
      have : ∀ x ∈ range r, US'.get [x, t] ^ 2 = S.getD t 0 ^ 2 * (U'.get [x, t] * U'.get [x, t]) := by
        intro x _; rw [hUS'g x t ht]; ring
      rw [sum_congr rfl this, ← mul_sum, ho, mul_one]
    rw [sum_congr rfl this]
    have h3 : ∑ t ∈ range r, S.getD t 0 ^ 2 ≤ ∑ t ∈ range (min r (n * s)), S.getD t 0 ^ 2 :=
      sum_le_sum_of_subset_of_nonneg (range_subset_range.2 hkl) fun _ _ _ => sq_nonneg _
    rw [← hsum] at h3
    exact h3.trans (pow_le_pow_left₀ (frobN_nonneg _) hBn 2)
  have hUSd : frobD US US' ≤ ε * ((1 + ε) * c) := by
    refine le_of_sq_le_sq ?_ (by positivity)
    have h1 : frobD U U' ^ 2 ≤ ε ^ 2 := pow_le_pow_left₀ (frobD_nonneg _ _) e2 2
    rw [frobD_mat hU] at h1
    rw [frobD_mat hUS]
    have h2 : ∑ x ∈ range r, ∑ t ∈ range r, (US.get [x, t] - US'.get [x, t]) ^ 2
        ≤ S.getD 0 0 ^ 2 * ∑ x ∈ range r, ∑ t ∈ range r, (U.get [x, t] - U'.get [x, t]) ^ 2 := by
      rw [mul_sum]
      refine sum_le_sum fun x _ => ?_
      rw [mul_sum]
      refine sum_le_sum fun t ht => ?_
      have ht : t < r := by simpa using ht
      rw [hUSg x t ht, hUS'g x t ht, ← sub_mul, mul_pow, mul_comm]
      exact mul_le_mul_of_nonneg_right (pow_le_pow_left₀ (hsvd.nonneg t) (hsvd.antitone 0 t (Nat.zero_le _)) 2) (sq_nonneg _)
    calc _ ≤ _ := h2
      _ ≤ ((1 + ε) * c) ^ 2 * ε ^ 2 := mul_le_mul (pow_le_pow_left₀ hS0 hS 2) h1
        (sum_nonneg fun _ _ => sum_nonneg fun _ _ => sq_nonneg _) (by positivity)
      _ = _ := by ring
  have hUSn' : frobN US ≤ (1 + ε) ^ 2 * c := by
    have := frobN_le (A := US') (B := US) (by rw [hUS, hUS's])
    rw [frobD_symm (by rw [hUS, hUS's])] at this
    nlinarith
  have hEd : frobD (ND.es_ijk_kl_ijl D US) (ND.es_ijk_kl_ijl D' US') ≤ ε * (1 + ε) * (2 + ε) * c := by
    refine (es_diff hD hD' hUS hUS's hp3).trans ?_
    have := mul_le_mul hp2 hUSn' (frobN_nonneg _) hε
    nlinarith
  have sE := ND.es_ijk_kl_ijl_shape hD hUS
  have sE' := ND.es_ijk_kl_ijl_shape hD' hUS's
  have hch : TTChain 1 (D' :: Ds').reverse r := st.chain
  have hE'n : frobN (ND.es_ijk_kl_ijl D' US') ≤ (1 + ε) * c := by
    have h1 : d2 (coreShape (ND.es_ijk_kl_ijl D' US' :: Ds')).reverse r (revVal (ND.es_ijk_kl_ijl D' US' :: Ds')) (RoundStep.proj Vt' n s z2)
        ≤ d2 (coreShape (B :: D' :: Ds')).reverse s (revVal (B :: D' :: Ds')) z2 := Real.sqrt_le_sqrt (st.dist_next z2)
    have hz : RoundStep.proj Vt' n s z2 = z2 := by funext p t; simp [RoundStep.proj, z2]
    rw [hz, rev_norm hDs' ho sE', rev_norm hch hoall hBs] at h1
    exact h1.trans hBn
  rw [← hc]
  refine ⟨B, U', Vt', US', V', st, hCB, hEd, ?_⟩
  have := frobN_le (A := ND.es_ijk_kl_ijl D' US') (B := ND.es_ijk_kl_ijl D US) (by rw [sE, sE'])
  rw [frobD_symm (by rw [sE, sE'])] at this
  have e : (1 + ε) ^ 3 * c = (1 + ε) * c + ε * (1 + ε) * (2 + ε) * c := by ring
  rw [e]; linarith

/-- The values before the step, in terms of the singular vectors. -/
theorem step_value {C D : ND ℝ} {Ds : List (ND ℝ)} {U : ND ℝ} {S : List ℝ} {Vt US V : ND ℝ} {q m r n s : ℕ}
    (hst : RoundStep C D Ds U S Vt US V q m r n s r) (hr : r ≤ n * s) (W : ℕ → List ℕ → ℝ) {p : List ℕ}
    (hp : InR (coreShape (D :: Ds)).reverse p) {i : ℕ} (hi : i < n) (q' : List ℕ) :
    ∑ y ∈ range s, revVal (C :: D :: Ds) (p ++ [i]) y * W y q'
      = ∑ t ∈ range r, RoundStep.left D Ds U r t p * S.getD t 0 * rightVec Vt s W t (i :: q') := by
  have hpl : p.length = (D :: Ds).length := by rw [hp.length, List.length_reverse, coreShape_length]
  have e1 : ∀ y ∈ range s, revVal (C :: D :: Ds) (p ++ [i]) y * W y q'
      = ∑ t ∈ range r, RoundStep.left D Ds U r t p * S.getD t 0 * (Vt.get [t, i * s + y] * W y q') := by
    intro y hy
    rw [hst.val hpl hi (by simpa using hy), min_eq_left hr, sum_mul]
    exact sum_congr rfl fun t _ => by ring
  rw [sum_congr rfl e1, sum_comm]
  refine sum_congr rfl fun t _ => ?_
  rw [rightVec, mul_sum]

theorem sv_arith {ε c c' : ℝ} (hε : 0 ≤ ε) (hc : 0 ≤ c) (hcc : c' ≤ (1 + ε) ^ 3 * c) (N : ℕ) :
    ε * c ≤ (3 * (N : ℝ) + 1) * ε * (1 + ε) ^ (3 * N) * c ∧
    ε * c + (ε * (1 + ε) * (2 + ε) * c + (3 * (N : ℝ) + 1) * ε * (1 + ε) ^ (3 * N) * c')
      ≤ (3 * ((N + 1 : ℕ) : ℝ) + 1) * ε * (1 + ε) ^ (3 * (N + 1)) * c := by
  have hp : 1 ≤ (1 + ε) ^ (3 * N) := one_le_pow₀ (by linarith)
  have hεc : 0 ≤ ε * c := mul_nonneg hε hc
  have hN : (0 : ℝ) ≤ N := Nat.cast_nonneg N
  constructor
  · have h1 : (1 : ℝ) * 1 ≤ (3 * (N : ℝ) + 1) * (1 + ε) ^ (3 * N) := mul_le_mul (by linarith) hp zero_le_one (by linarith)
    have := mul_le_mul_of_nonneg_right h1 hεc
    nlinarith
  · have h1 : (3 * (N : ℝ) + 1) * ε * (1 + ε) ^ (3 * N) * c' ≤ (3 * (N : ℝ) + 1) * ε * (1 + ε) ^ (3 * N) * ((1 + ε) ^ 3 * c) :=
      mul_le_mul_of_nonneg_left hcc (by positivity)
    have h2 : ε * c + ε * (1 + ε) * (2 + ε) * c ≤ 3 * ((1 + ε) ^ 3 * (ε * c)) := by
      have : ε * c + ε * (1 + ε) * (2 + ε) * c = (3 + 3 * ε + ε ^ 2) * (ε * c) := by ring
      rw [this, show 3 * ((1 + ε) ^ 3 * (ε * c)) = (3 * (1 + ε) ^ 3) * (ε * c) by ring]
      refine mul_le_mul_of_nonneg_right ?_ hεc
      nlinarith [pow_nonneg hε 2, pow_nonneg hε 3]
    have h3 : 3 * ((1 + ε) ^ 3 * (ε * c)) ≤ 3 * ((1 + ε) ^ (3 * (N + 1)) * (ε * c)) := by
      refine mul_le_mul_of_nonneg_left (mul_le_mul_of_nonneg_right ?_ hεc) (by norm_num)
      exact pow_le_pow_right₀ (by linarith) (by omega)
    have e : (3 * ((N + 1 : ℕ) : ℝ) + 1) * ε * (1 + ε) ^ (3 * (N + 1)) * c
        = (3 * (N : ℝ) + 1) * ε * (1 + ε) ^ (3 * N) * ((1 + ε) ^ 3 * c) + 3 * ((1 + ε) ^ (3 * (N + 1)) * (ε * c)) := by
      rw [show 3 * (N + 1) = 3 * N + 3 by ring, pow_add]; push_cast; ring
    rw [e]; linarith

/-- The lists found by the sweep with an inexact SVD: exact singular values of a tensor near the one represented. -/
theorem svdvalsLoop_approx {la : LinAlg} {ε : ℝ} (hε : 0 ≤ ε) (hs : la.SVDApprox ε) : ∀ (Cs Cs' : List (ND ℝ)) (C : ND ℝ)
    (r n s : ℕ), C.shape = [r, n, s] → TTChain 1 Cs.reverse r → TTChain 1 Cs'.reverse r → List.Forall₂ (Partner ε) Cs Cs' →
    (∀ j < Cs.length, bondOf (C :: Cs) j ≤ (coreShape (C :: Cs)).getD j 0 * ((C :: Cs).getD j (ND.zeros [])).dim 2) →
    ∃ L, TT.svdvalsLoop la none (C :: Cs) = .ok L ∧ L.length = Cs.length + 1 ∧
      (∀ j < Cs.length, (L.getD j []).length = bondOf (C :: Cs) j) ∧
      ∀ (rs : List ℕ) (W : ℕ → List ℕ → ℝ) (f : List ℕ → ℝ), Orthn (idxSet rs) s W →
        (∀ p q, InR (coreShape (C :: Cs')).reverse p → InR rs q →
          f (p ++ q) = ∑ y ∈ range s, revVal (C :: Cs') p y * W y q) →
        ∀ j ≤ Cs.length, ∃ g, SVsF g (((coreShape (C :: Cs')).reverse ++ rs).take (max (Cs.length - j) 1))
          (((coreShape (C :: Cs')).reverse ++ rs).drop (max (Cs.length - j) 1)) (L.getD j []) ∧
          fdist ((coreShape (C :: Cs')).reverse ++ rs) f g
            ≤ (3 * (Cs.length : ℝ) + 1) * ε * (1 + ε) ^ (3 * Cs.length) * frobN C
  | [], _, C, r, n, s, hC, hCs, _, .nil, hb => by
    cases hCs
    obtain ⟨d0, d1, d2'⟩ := dim_of_shape3 hC
    have hsvd := hs (C.reshape [1 * n, s]) (1 * n) s rfl
    have hrun : TT.svdvalsLoop la none [C] = .ok [(la.svd (C.reshape [1 * n, s])).2.1] := by
      rw [TT.svdvalsLoop, d0, d1, d2']; rfl
    generalize hUSV : la.svd (C.reshape [1 * n, s]) = USV at hsvd hrun
    obtain ⟨U, S, Vt⟩ := USV
    simp only at hsvd hrun
    obtain ⟨-, -, M', U', Vt', hM's, hsvd, e1, -, -⟩ := hsvd
    refine ⟨[S], hrun, rfl, fun j hj => by simp at hj, ?_⟩
    intro rs W f hW hf j hj
    have hj0 : j = 0 := by simpa using hj
    subst hj0
    have hcs : (coreShape [C]).reverse = [n] := by rw [coreShape_cons, d1]; rfl
    -- the nearby core
    obtain ⟨B, hB⟩ : ∃ B, B = M'.reshape [1, n, s] := ⟨_, rfl⟩
    have hpr : ([1, n, s] : List ℕ).prod = M'.shape.prod := by rw [hM's]; simp
    have hBs : B.shape = [1, n, s] := by rw [hB]; rfl
    have hBM : B.reshape [1 * n, s] = M' := by
      rw [hB, ND.reshape_reshape hpr (by rw [hM's]), ← hM's, ND.reshape_self]
    rw [← hBM] at hsvd
    have hprC : ([1 * n, s] : List ℕ).prod = C.shape.prod := by rw [hC]; simp
    have hCB : frobD C B ≤ ε * frobN C := by
      have : frobD (C.reshape [1 * n, s]) (B.reshape [1 * n, s]) = frobD C B := frobD_reshape (by rw [hBs, hC]) hprC
      rw [← this, hBM, ← frobN_reshape hprC]; exact e1
    have hg : ∀ p q, InR (coreShape [C]).reverse p → InR rs q →
        gOf 1 s (revVal [B]) W (p ++ q) = ∑ y ∈ range s, revVal [B] p y * W y q := by
      intro p q hp _
      exact gOf_append (by rw [hp.length, hcs]; rfl)
    refine ⟨gOf 1 s (revVal [B]) W, ?_, ?_⟩
    · rw [hcs] at hg ⊢
      show SVsF _ [n] rs S
      refine ⟨hsvd.nonneg, hsvd.antitone, fun t p => U'.get [p.getD 0 0, t], fun t q => ∑ y ∈ range s, Vt'.get [t, y] * W y q,
        ?_, ?_, ?_⟩
      · intro a ha b hb
        rw [hsvd.length] at ha hb
        have := hsvd.orthU a (by omega) b (by omega)
        rw [sum_idxSet_cons, ← this, one_mul]
        refine sum_congr rfl fun i _ => ?_
        rw [← sumIdx_eq_sum]
        simp
      · intro a ha b hb
        rw [hsvd.length] at ha hb
        have := hsvd.orthV a (by omega) b (by omega)
        rw [← this]
        exact hW.inner (fun y => Vt'.get [a, y]) fun y => Vt'.get [b, y]
      · intro p q hp hq
        obtain ⟨i, rfl⟩ : ∃ i, p = [i] := by
          match p, hp with
          | [i], _ => exact ⟨i, rfl⟩
        have hi : i < n := hp.1
        rw [hg [i] q hp hq, hsvd.length]
        have e : ∀ y ∈ range s, revVal [B] [i] y * W y q
            = ∑ t ∈ range (min (1 * n) s), U'.get [i, t] * S.getD t 0 * (Vt'.get [t, y] * W y q) := by
          intro y hy
          have hy : y < s := by simpa using hy
          have h1 : revVal [B] [i] y = B.get [0, i, y] := by
            have := revVal_cons (Cs := []) hBs (by rfl) (p := []) rfl i y
            rw [List.nil_append] at this
            rw [this, sum_range_one]
            show (if (0 : ℕ) = 0 then (1 : ℝ) else 0) * _ = _
            simp
          have h2 : (B.reshape [1 * n, s]).get [i, y] = B.get [0, i, y] := by
            have := ND.reshape_merge12 hBs 0 i y (by simpa using hi)
            rwa [zero_mul, zero_add] at this
          rw [h1, ← h2, ← hsvd.mul i (by omega) y hy, sum_mul]
          exact sum_congr rfl fun t _ => by ring
        rw [sum_congr rfl e, sum_comm]
        refine sum_congr rfl fun t _ => ?_
        rw [mul_sum]; rfl
    · rw [fdist_gOf hW hf hg, rev_iso (Cs := []) rfl (by simp) hC hBs]
      refine hCB.trans (le_of_eq ?_)
      simp
  | D :: Ds, D' :: Ds', C, r, n, s, hC, hCs, hCs', .cons hp hps, hb => by
    rw [List.reverse_cons] at hCs hCs'
    obtain ⟨q, hD1, m, t, hD2, hD3⟩ := hCs.split
    cases hD3
    have hD2' : D'.shape = [q, m, r] := hp.1.trans hD2
    have hD1' : TTChain 1 Ds'.reverse q := by
      obtain ⟨q', k1, m', t', k2, k3⟩ := hCs'.split
      rw [hD2'] at k2
      cases k2
      exact k1
    have hOr : ∀ E ∈ Ds', E.LeftOrthogonal := by
      have : ∀ {l l' : List (ND ℝ)}, List.Forall₂ (Partner ε) l l' → ∀ E ∈ l', E.LeftOrthogonal := by
        intro l l' h
        induction h with
        | nil => intro E hE; cases hE
        | cons h _ ih =>
          intro E hE
          rcases List.mem_cons.1 hE with rfl | hE
          exacts [h.2.2, ih E hE]
      exact this hps
    obtain ⟨d0, d1, d2'⟩ := dim_of_shape3 hC
    have hr : r ≤ n * s := by
      have := hb 0 (by simp)
      have e1 : bondOf (C :: D :: Ds) 0 = r := d0
      have e2 : (coreShape (C :: D :: Ds)).getD 0 0 = n := d1
      have e3 : ((C :: D :: Ds).getD 0 (ND.zeros [])).dim 2 = s := d2'
      rwa [e1, e2, e3] at this
    have hsvd := hs (C.reshape [r, n * s]) r (n * s) rfl
    have hrun := svdvalsLoop_step la D Ds hC
    rw [svdvalsLoop_some] at hrun
    generalize hUSV : la.svd (C.reshape [r, n * s]) = USV at hsvd hrun
    obtain ⟨U, S, Vt⟩ := USV
    simp only at hsvd hrun
    have hUsh : U.shape = [r, r] := hsvd.1
    have hSl : S.length = r := by
      obtain ⟨-, -, M', U', Vt', -, h, -, -, -⟩ := hsvd
      rw [h.length, min_eq_left hr]
    have hUd : U.dim 1 = r := by unfold ND.dim; rw [hUsh]; rfl
    rw [if_neg (by rw [hUd, hSl]; simp)] at hrun
    have hdg : (ND.diag S).shape = [r, r] := by
      show [S.length, S.length] = _
      rw [hSl]
    obtain ⟨US, hUSe⟩ : ∃ US, US = U.matmul (ND.diag S) := ⟨_, rfl⟩
    rw [← hUSe] at hrun
    have hUS : US.shape = [r, r] := by rw [hUSe]; exact ND.matmul_shape' hUsh hdg
    have hUSg : ∀ x, ∀ t < r, US.get [x, t] = U.get [x, t] * S.getD t 0 := by
      intro x t ht
      rw [hUSe, ND.matmul_get hUsh hdg, sum_eq_single t]
      · rw [ND.diag_get, if_pos rfl]
      · intro y _ hy; rw [ND.diag_get, if_neg hy, mul_zero]
      · intro h; exact absurd (mem_range.2 ht) h
    obtain ⟨B, U', Vt', US', V', hst, hCB, hEd, hEn⟩ := approxSvStep hε hC hD2 hp hD1' hOr hsvd hr hUS hUSg
    have sE := ND.es_ijk_kl_ijl_shape hD2 hUS
    have sE' := hst.hD'
    obtain ⟨L, l1, l2, l3, l4⟩ := svdvalsLoop_approx hε hs Ds Ds' (ND.es_ijk_kl_ijl D US) q m r sE hD1 hD1' hps (by
        intro j hj
        have := hb (j + 1) (by simpa using hj)
        cases j with
        | zero =>
          have e1 : bondOf (C :: D :: Ds) 1 = q := (dim_of_shape3 hD2).1
          have e2 : (coreShape (C :: D :: Ds)).getD 1 0 = m := (dim_of_shape3 hD2).2.1
          have e3 : ((C :: D :: Ds).getD 1 (ND.zeros [])).dim 2 = r := (dim_of_shape3 hD2).2.2
          have f1 : bondOf (ND.es_ijk_kl_ijl D US :: Ds) 0 = q := (dim_of_shape3 sE).1
          have f2 : (coreShape (ND.es_ijk_kl_ijl D US :: Ds)).getD 0 0 = m := (dim_of_shape3 sE).2.1
          have f3 : ((ND.es_ijk_kl_ijl D US :: Ds).getD 0 (ND.zeros [])).dim 2 = r := (dim_of_shape3 sE).2.2
          rw [f1, f2, f3]
          rw [zero_add, e1, e2, e3] at this
          exact this
        | succ j => exact this)
    refine ⟨S :: L, by rw [hrun, l1]; rfl, by simp [l2], ?_, ?_⟩
    · intro j hj
      cases j with
      | zero => rw [show (S :: L).getD 0 [] = S from rfl, hSl]; exact d0.symm
      | succ j =>
        have := l3 j (by simpa using hj)
        rw [show (S :: L).getD (j + 1) [] = L.getD j [] from rfl, this]
        cases j with
        | zero => show (ND.es_ijk_kl_ijl D US).dim 0 = D.dim 0; rw [(dim_of_shape3 sE).1, (dim_of_shape3 hD2).1]
        | succ j => rfl
    · intro rs W f hW hf j hj
      have hlen : Ds.length = Ds'.length := hps.length_eq
      have hcsC : (coreShape (C :: D' :: Ds')).reverse = (coreShape (D' :: Ds')).reverse ++ [n] := by
        rw [coreShape_cons, d1, List.reverse_cons]
      have hlenD : (coreShape (D' :: Ds')).reverse.length = (D' :: Ds').length := by
        rw [List.length_reverse, coreShape_length]
      have hlenC : (coreShape (C :: D' :: Ds')).reverse.length = (C :: D' :: Ds').length := by
        rw [List.length_reverse, coreShape_length]
      have hRV : Orthn (idxSet (n :: rs)) r (rightVec Vt' s W) := (rightVec_orthn hW hst.orthV).mono hr
      obtain ⟨g1, hg1⟩ : ∃ g, g = gOf (C :: D' :: Ds').length s (revVal (B :: D' :: Ds')) W := ⟨_, rfl⟩
      have hg1v : ∀ p q, InR (coreShape (C :: D' :: Ds')).reverse p → InR rs q →
          g1 (p ++ q) = ∑ y ∈ range s, revVal (B :: D' :: Ds') p y * W y q := by
        intro p q hp _
        rw [hg1]; exact gOf_append (by rw [hp.length, hlenC])
      have hfg1 : fdist ((coreShape (C :: D' :: Ds')).reverse ++ rs) f g1 ≤ ε * frobN C := by
        rw [fdist_gOf hW hf hg1v, rev_iso hst.chain hst.orth hC hst.hC]; exact hCB
      have hval : ∀ p i q', InR (coreShape (D' :: Ds')).reverse p → i < n → InR rs q' →
          g1 (p ++ i :: q') = ∑ t ∈ range r, RoundStep.left D' Ds' U' r t p * S.getD t 0 * rightVec Vt' s W t (i :: q') := by
        intro p i q' hp hi hq'
        have e0 : p ++ i :: q' = (p ++ [i]) ++ q' := by simp
        rw [e0, hg1v (p ++ [i]) q' (by rw [hcsC]; exact hp.append (show InR [n] [i] from ⟨hi, trivial⟩)) hq']
        exact step_value hst hr W hp hi q'
      have har := sv_arith (c' := frobN (ND.es_ijk_kl_ijl D US)) hε (frobN_nonneg C) hEn Ds.length
      cases j with
      | zero =>
        refine ⟨g1, ?_, ?_⟩
        · have hm : max ((D :: Ds).length - 0) 1 = (coreShape (D' :: Ds')).reverse.length := by
            rw [hlenD, List.length_cons, List.length_cons]; omega
          rw [hm, hcsC, List.append_assoc, List.take_left, List.drop_left]
          show SVsF g1 (coreShape (D' :: Ds')).reverse (n :: rs) S
          refine ⟨hst.svd.nonneg, hst.svd.antitone, RoundStep.left D' Ds' U' r, rightVec Vt' s W, ?_, ?_, ?_⟩
          · rw [hSl]; exact hst.orthLeft
          · rw [hSl]; exact hRV
          · intro p q' hp hq'
            match q', hq' with
            | i :: q', hq' => rw [hval p i q' hp hq'.1 hq'.2, hSl]
        · exact hfg1.trans (sv_arith (c' := 0) hε (frobN_nonneg C) (by have := frobN_nonneg C; positivity) (D :: Ds).length).1
      | succ j =>
        have hj' : j ≤ Ds.length := by simpa using hj
        have csE : coreShape (ND.es_ijk_kl_ijl D US :: Ds') = coreShape (D' :: Ds') := by
          rw [coreShape_cons, coreShape_cons, (dim_of_shape3 sE).2.1, (dim_of_shape3 hD2').2.1]
        obtain ⟨g2, hg2⟩ : ∃ g, g = gOf (D' :: Ds').length r (revVal (ND.es_ijk_kl_ijl D US :: Ds')) (rightVec Vt' s W) := ⟨_, rfl⟩
        have hg2v : ∀ p q, InR (coreShape (D' :: Ds')).reverse p → InR (n :: rs) q →
            g2 (p ++ q) = ∑ y ∈ range r, revVal (ND.es_ijk_kl_ijl D US :: Ds') p y * rightVec Vt' s W y q := by
          intro p q hp _
          rw [hg2]; exact gOf_append (by rw [hp.length, hlenD])
        have hg1v' : ∀ p q, InR (coreShape (D' :: Ds')).reverse p → InR (n :: rs) q →
            g1 (p ++ q) = ∑ y ∈ range r, revVal (ND.es_ijk_kl_ijl D' US' :: Ds') p y * rightVec Vt' s W y q := by
          intro p q' hp hq'
          have hpl : p.length = (D' :: Ds').length := by rw [hp.length, hlenD]
          match q', hq' with
          | i :: q', hq' =>
            rw [hval p i q' hp hq'.1 hq'.2]
            refine sum_congr rfl fun t ht => ?_
            rw [hst.next hpl (by simpa using ht)]
        obtain ⟨g, hg, hgd⟩ := l4 (n :: rs) (rightVec Vt' s W) g2 hRV (by rw [csE]; exact hg2v) j hj'
        rw [csE] at hg hgd
        have hg12 : fdist ((coreShape (D' :: Ds')).reverse ++ n :: rs) g1 g2 ≤ ε * (1 + ε) * (2 + ε) * frobN C := by
          rw [fdist_symm, fdist_gOf hRV hg2v hg1v', ← csE, rev_iso hD1' hOr sE sE']; exact hEd
        refine ⟨g, ?_, ?_⟩
        · rw [hcsC, List.append_assoc, show (D :: Ds).length - (j + 1) = Ds.length - j by simp]
          exact hg
        · have e : (coreShape (C :: D' :: Ds')).reverse ++ rs = (coreShape (D' :: Ds')).reverse ++ n :: rs := by
            rw [hcsC, List.append_assoc]; rfl
          rw [e] at hfg1 ⊢
          have t1 := fdist_triangle ((coreShape (D' :: Ds')).reverse ++ n :: rs) f g1 g
          have t2 := fdist_triangle ((coreShape (D' :: Ds')).reverse ++ n :: rs) g1 g2 g
          refine le_trans ?_ har.2
          linarith

end TTS
