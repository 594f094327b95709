import Verif.Proofs.TTSvd
import Verif.Spec.ApproxSvd

/-! TT-SVD with inexact singular value decompositions. -/

namespace TTS

open Finset

theorem sqrt_sum_add_le {ι : Type*} (s : Finset ι) (f g : ι → ℝ) :
    √ (∑ i ∈ s, (f i + g i) ^ 2) ≤ √ (∑ i ∈ s, f i ^ 2) + √ (∑ i ∈ s, g i ^ 2) := by
  refine (Real.sqrt_le_left (by positivity)).2 ?_
  have h := Real.sum_mul_le_sqrt_mul_sqrt s f g
  have h1 := Real.sq_sqrt (sum_nonneg fun i (_ : i ∈ s) => sq_nonneg (f i))
  have h2 := Real.sq_sqrt (sum_nonneg fun i (_ : i ∈ s) => sq_nonneg (g i))
  have e : ∑ i ∈ s, (f i + g i) ^ 2 = ∑ i ∈ s, f i ^ 2 + 2 * ∑ i ∈ s, f i * g i + ∑ i ∈ s, g i ^ 2 := by
    rw [mul_sum, ← sum_add_distrib, ← sum_add_distrib]
    exact sum_congr rfl fun i _ => by ring
  rw [e, add_sq, h1, h2]
  nlinarith

/-- Minkowski in the plane. -/
theorem sqrt_pair {a b c d : ℝ} : √ ((a + c) ^ 2 + (b + d) ^ 2) ≤ √ (a ^ 2 + b ^ 2) + √ (c ^ 2 + d ^ 2) := by
  have := sqrt_sum_add_le (univ : Finset (Fin 2)) ![a, b] ![c, d]
  simpa [Fin.sum_univ_two] using this

theorem sqrt_pair_le {c d : ℝ} (hc : 0 ≤ c) (hd : 0 ≤ d) : √ (c ^ 2 + d ^ 2) ≤ c + d := by
  refine (Real.sqrt_le_left (by positivity)).2 ?_
  nlinarith [mul_nonneg hc hd]

/-- Distance. -/
noncomputable def dL (r : ℕ) (sh : List ℕ) (F G : ℕ → List ℕ → ℝ) : ℝ := √ (distL r sh F G)

/-- the zero function -/
def zL : ℕ → List ℕ → ℝ := fun _ _ => 0

theorem distL_nonneg (r : ℕ) (sh : List ℕ) (F G : ℕ → List ℕ → ℝ) : 0 ≤ distL r sh F G := by
  unfold distL
  simp only [sumIdx_eq_sum]
  exact sum_nonneg fun _ _ => sum_nonneg fun _ _ => sq_nonneg _

theorem dL_nonneg (r : ℕ) (sh : List ℕ) (F G : ℕ → List ℕ → ℝ) : 0 ≤ dL r sh F G := Real.sqrt_nonneg _

theorem dL_sq (r : ℕ) (sh : List ℕ) (F G : ℕ → List ℕ → ℝ) : dL r sh F G ^ 2 = distL r sh F G :=
  Real.sq_sqrt (distL_nonneg _ _ _ _)

theorem distL_eq (r : ℕ) (sh : List ℕ) (F G : ℕ → List ℕ → ℝ) :
    distL r sh F G = ∑ z ∈ range r ×ˢ idxSet sh, (F z.1 z.2 - G z.1 z.2) ^ 2 := by
  unfold distL
  rw [sum_product]
  exact sum_congr rfl fun x _ => sumIdx_eq_sum _

theorem dL_triangle (r : ℕ) (sh : List ℕ) (F G H : ℕ → List ℕ → ℝ) : dL r sh F H ≤ dL r sh F G + dL r sh G H := by
  unfold dL
  simp only [distL_eq]
  refine le_trans (le_of_eq ?_) (sqrt_sum_add_le (range r ×ˢ idxSet sh) (fun z => F z.1 z.2 - G z.1 z.2)
    (fun z => G z.1 z.2 - H z.1 z.2))
  congr 1
  exact sum_congr rfl fun z _ => by ring

theorem dL_symm (r : ℕ) (sh : List ℕ) (F G : ℕ → List ℕ → ℝ) : dL r sh F G = dL r sh G F := by
  unfold dL
  simp only [distL_eq]
  congr 1
  exact sum_congr rfl fun z _ => by ring

theorem dL_congr {r : ℕ} {sh : List ℕ} {F F' G G' : ℕ → List ℕ → ℝ} (h : ∀ x < r, ∀ p, InR sh p → F x p = F' x p)
    (h' : ∀ x < r, ∀ p, InR sh p → G x p = G' x p) : dL r sh F G = dL r sh F' G' := by
  unfold dL distL
  congr 1
  refine sum_congr rfl fun x hx => sumIdx_congr fun p hp => ?_
  rw [h x (by simpa using hx) p hp, h' x (by simpa using hx) p hp]

/-- `U` applied to the rows `T`. -/
noncomputable def app (U : ND ℝ) (n k : ℕ) (T : ℕ → List ℕ → ℝ) (x : ℕ) : List ℕ → ℝ
  | [] => 0
  | i :: q => ∑ t ∈ range k, U.get [x * n + i, t] * T t q

theorem sum_pairs (r n : ℕ) (f : ℕ → ℕ → ℕ → ℝ) :
    ∑ x ∈ range r, ∑ i ∈ range n, f x i (x * n + i) = ∑ j ∈ range (r * n), f (j / n) (j % n) j := by
  rw [range_mul_sum]
  refine sum_congr rfl fun x _ => sum_congr rfl fun i hi => ?_
  rw [(SvdStep.divmod x (mem_range.1 hi)).1, (SvdStep.divmod x (mem_range.1 hi)).2]

theorem distL_step (r n : ℕ) (rest : List ℕ) (F G : ℕ → List ℕ → ℝ) :
    distL r (n :: rest) F G = ∑ q ∈ idxSet rest, ∑ x ∈ range r, ∑ i ∈ range n, (F x (i :: q) - G x (i :: q)) ^ 2 := by
  unfold distL
  rw [SvdStep.sum_step]

theorem distL_swap (k : ℕ) (rest : List ℕ) (F G : ℕ → List ℕ → ℝ) :
    distL k rest F G = ∑ q ∈ idxSet rest, ∑ t ∈ range k, (F t q - G t q) ^ 2 := by
  unfold distL
  simp only [sumIdx_eq_sum]
  rw [sum_comm]

/-- Orthonormal columns keep the norm. -/
theorem app_norm {U : ND ℝ} {r n k : ℕ} {rest : List ℕ}
    (h : Orthn (range (r * n)) k fun t j => U.get [j, t]) (T : ℕ → List ℕ → ℝ) :
    distL r (n :: rest) (app U n k T) zL = distL k rest T zL := by
  rw [distL_step, distL_swap]
  refine sum_congr rfl fun q _ => ?_
  have := h.parseval fun t => T t q
  simp only [zL, sub_zero, app]
  rw [← this, range_mul_sum]
  exact sum_congr rfl fun x _ => sum_congr rfl fun i _ => by
    congr 1
    exact sum_congr rfl fun t _ => by ring

/-- Changing the matrix. -/
theorem app_diff (U U' : ND ℝ) (r n k : ℕ) (rest : List ℕ) (T : ℕ → List ℕ → ℝ) :
    distL r (n :: rest) (app U n k T) (app U' n k T)
      ≤ (∑ j ∈ range (r * n), ∑ t ∈ range k, (U.get [j, t] - U'.get [j, t]) ^ 2) * distL k rest T zL := by
  rw [distL_step, distL_swap, mul_sum]
  refine sum_le_sum fun q _ => ?_
  rw [range_mul_sum, sum_mul]
  refine sum_le_sum fun x _ => ?_
  rw [sum_mul]
  refine sum_le_sum fun i _ => ?_
  simp only [app, zL, sub_zero, ← sum_sub_distrib, ← sub_mul]
  exact sum_mul_sq_le_sq_mul_sq _ _ _

namespace SvdStep
variable {A U : ND ℝ} {S : List ℝ} {V core A' : ND ℝ} {r n : ℕ} {rest : List ℕ} {k : ℕ}

/-- The error of a step and of the rest are orthogonal. -/
theorem pyth (st : SvdStep A U S V core A' r n rest k) (T : ℕ → List ℕ → ℝ) :
    distL r (n :: rest) (entL A) (app U n k T)
      = ∑ t ∈ Ico k (min (r * n) rest.prod), S.getD t 0 ^ 2 + distL k rest (entL A') T := by
  rw [distL_step, distL_swap]
  obtain ⟨u, hu⟩ : ∃ u, u = min (r * n) rest.prod := ⟨_, rfl⟩
  have hku : k ≤ u := by rw [hu]; exact st.kle
  let b : List ℕ → ℕ → ℝ := fun q t =>
    if t < k then entL A' t q - T t q else S.getD t 0 * V.get [t, ravel rest q]
  have hdiff : ∀ q ∈ idxSet rest, ∑ x ∈ range r, ∑ i ∈ range n,
      (entL A x (i :: q) - app U n k T x (i :: q)) ^ 2 = ∑ t ∈ range u, b q t ^ 2 := by
    intro q hq
    have hq := mem_idxSet.1 hq
    rw [← (hu ▸ st.orthU : Orthn (range (r * n)) u _).parseval, range_mul_sum]
    refine sum_congr rfl fun x hx => sum_congr rfl fun i hi => ?_
    have hx : x < r := by simpa using hx
    have hi : i < n := by simpa using hi
    congr 1
    show A.get (x :: i :: q) - ∑ t ∈ range k, U.get [x * n + i, t] * T t q = _
    rw [st.val hx hi hq, ← hu,
      ← sum_range_add_sum_Ico _ hku, ← sum_range_add_sum_Ico (fun t => b q t * _) hku, add_sub_right_comm,
      ← sum_sub_distrib]
    congr 1
    · refine sum_congr rfl fun t ht => ?_
      have ht : t < k := by simpa using ht
      simp only [b, if_pos ht]
      unfold entL
      rw [st.hA'g t ht q hq]; ring
    · refine sum_congr rfl fun t ht => ?_
      have ht : ¬ t < k := by simp at ht; omega
      simp only [b, if_neg ht]; ring
  rw [sum_congr rfl hdiff]
  have hsplit : ∀ q, ∑ t ∈ range u, b q t ^ 2
      = ∑ t ∈ range k, (entL A' t q - T t q) ^ 2
        + ∑ t ∈ Ico k u, S.getD t 0 ^ 2 * V.get [t, ravel rest q] ^ 2 := by
    intro q
    rw [← sum_range_add_sum_Ico _ hku]
    congr 1
    · exact sum_congr rfl fun t ht => by simp only [b, if_pos (mem_range.1 ht)]
    · refine sum_congr rfl fun t ht => ?_
      have ht : ¬ t < k := by simp at ht; omega
      simp only [b, if_neg ht]; ring
  simp only [hsplit]
  rw [sum_add_distrib, add_comm, ← hu]
  congr 1
  rw [sum_comm]
  refine sum_congr rfl fun t ht => ?_
  rw [← mul_sum]
  have htu : t < min (r * n) rest.prod := by have := (mem_Ico.1 ht).2; omega
  have := st.orthV t htu t htu
  rw [if_pos rfl] at this
  simp only [sq (V.get _)]
  rw [this, mul_one]

end SvdStep

theorem distSq_flat {A B : ND ℝ} (hB : B.shape = A.shape) :
    distSq A B = ∑ j ∈ range A.shape.prod, (A.get (unravel A.shape j) - B.get (unravel B.shape j)) ^ 2 := by
  unfold distSq
  rw [← sum_ravel A.shape, hB]
  exact sumIdx_congr fun i hi => by rw [unravel_ravel hi]

theorem distSq_reshape {A B : ND ℝ} (hB : B.shape = A.shape) {s : List ℕ} (hs : s.prod = A.shape.prod) :
    distSq (A.reshape s) (B.reshape s) = distSq A B := by
  rw [distSq_flat hB]
  unfold distSq
  show sumIdx s _ = _
  rw [← hs, ← sum_ravel s]
  exact sumIdx_congr fun i hi => by rw [ND.reshape_get hi, ND.reshape_get hi]

theorem normSq_reshape' {A : ND ℝ} {s : List ℕ} (hs : s.prod = A.shape.prod) : normSq (A.reshape s) = normSq A := by
  have e : ∀ B : ND ℝ, normSq B = distSq B (ND.zeros B.shape) := by
    intro B
    unfold normSq distSq
    exact sumIdx_congr fun i _ => by rw [ND.zeros_get, sub_zero]
  rw [e A, ← distSq_reshape (A := A) (B := ND.zeros A.shape) rfl hs, e]
  unfold distSq
  refine sumIdx_congr fun i hi => ?_
  rw [ND.zeros_get, ND.reshape_get (A := ND.zeros A.shape) (s := s) hi, ND.zeros_get]

theorem dL_ent {A B : ND ℝ} {r : ℕ} {sh : List ℕ} (hA : A.shape = r :: sh) : dL r sh (entL A) (entL B) = frobD A B := by
  unfold dL distL frobD distSq entL
  rw [hA, sumIdx_cons]

theorem dL_ent_zero {A : ND ℝ} {r : ℕ} {sh : List ℕ} (hA : A.shape = r :: sh) : dL r sh (entL A) zL = frobN A := by
  unfold dL distL frobN normSq entL zL
  rw [hA, sumIdx_cons]
  simp only [sub_zero]

theorem frobD_mat {M M' : ND ℝ} {m n : ℕ} (h : M.shape = [m, n]) :
    frobD M M' ^ 2 = ∑ i ∈ range m, ∑ j ∈ range n, (M.get [i, j] - M'.get [i, j]) ^ 2 := by
  unfold frobD
  rw [Real.sq_sqrt (by unfold distSq; rw [sumIdx_eq_sum]; exact sum_nonneg fun _ _ => sq_nonneg _)]
  unfold distSq
  rw [h]; rfl

theorem frobN_mat {M : ND ℝ} {m n : ℕ} (h : M.shape = [m, n]) :
    frobN M ^ 2 = ∑ i ∈ range m, ∑ j ∈ range n, M.get [i, j] ^ 2 := by
  unfold frobN
  rw [Real.sq_sqrt (by unfold normSq; rw [sumIdx_eq_sum]; exact sum_nonneg fun _ _ => sq_nonneg _)]
  unfold normSq
  rw [h]; rfl

/-- The exact step behind the inexact one. -/
theorem svdStep_mk {A U V : ND ℝ} {S : List ℝ} {r n : ℕ} {rest : List ℕ} (hA : A.shape = r :: n :: rest)
    (hsvd : IsSVD (A.reshape [r * n, rest.prod]) U S V (r * n) rest.prod (min (r * n) rest.prod) (min (r * n) rest.prod))
    {k : ℕ} (hk1 : 1 ≤ k) (hku : k ≤ min (r * n) rest.prod) :
    ∃ core A', SvdStep A U S V core A' r n rest k := by
  refine ⟨ND.ofFn [r, n, k] fun i => U.get [i.getD 0 0 * n + i.getD 1 0, i.getD 2 0],
    ND.ofFn (k :: rest) fun i => S.getD (i.getD 0 0) 0 * V.get [i.getD 0 0, ravel rest i.tail], hA, hsvd, hk1, hku, rfl, ?_, rfl,
    ?_, ?_⟩
  · intro x hx i hi t ht
    rw [ND.ofFn_get (s := [r, n, k]) (i := [x, i, t]) ⟨hx, hi, ht, trivial⟩]; rfl
  · intro t ht q hq
    rw [ND.ofFn_get (s := k :: rest) (i := t :: q) ⟨ht, hq⟩]; rfl
  · intro x hx y hy
    have hx : x < k := hx
    have hy : y < k := hy
    show ∑ i ∈ range r, ∑ j ∈ range n, _ = _
    rw [← hsvd.orthU x (by omega) y (by omega), range_mul_sum]
    refine sum_congr rfl fun i hi => sum_congr rfl fun j hj => ?_
    have hi : i < r := by simpa using hi
    have hj : j < n := by simpa using hj
    rw [ND.ofFn_get (s := [r, n, k]) (i := [i, j, x]) ⟨hi, hj, hx, trivial⟩,
      ND.ofFn_get (s := [r, n, k]) (i := [i, j, y]) ⟨hi, hj, hy, trivial⟩]; rfl

/-- What one inexact step does to norms and distances. -/
structure ApproxStep (ε : ℝ) (A U : ND ℝ) (S : List ℝ) (V : ND ℝ) (r n : ℕ) (rest : List ℕ) (k kk : ℕ)
    (a' : ℕ → List ℕ → ℝ) : Prop where
  next : dL k rest a' zL ≤ (1 + ε) ^ 2 * dL r (n :: rest) (entL A) zL
  grow : ∀ T, dL r (n :: rest) (app U n k T) zL ≤ (1 + ε) * dL k rest T zL
  err : ∀ G, SplitsL r (n :: rest) G 0 kk → ∃ G', (∀ mu w, SplitsL r (n :: rest) G (mu + 1) w → SplitsL k rest G' mu w) ∧
    dL k rest a' G' ≤ dL r (n :: rest) (entL A) G + (ε + ε * (1 + ε)) * dL r (n :: rest) (entL A) zL ∧
    ∀ T, dL r (n :: rest) (entL A) (app U n k T) ≤ ε * dL r (n :: rest) (entL A) zL
      + √ ((dL r (n :: rest) (entL A) G + ε * dL r (n :: rest) (entL A) zL) ^ 2
        + (dL k rest a' T + ε * (1 + ε) * dL r (n :: rest) (entL A) zL) ^ 2) + ε * dL k rest T zL
  orth : ∀ s < k, ∀ t < k, |∑ j ∈ range (r * n), U.get [j, s] * U.get [j, t] - if s = t then 1 else 0| ≤ 2 * ε + ε ^ 2

theorem approxStep {ε : ℝ} (hε : 0 ≤ ε) {A U V : ND ℝ} {S : List ℝ} {r n : ℕ} {rest : List ℕ} {k kk : ℕ}
    (hA : A.shape = r :: n :: rest)
    (h : IsApproxSVD ε (A.reshape [r * n, rest.prod]) U S V (r * n) rest.prod (min (r * n) rest.prod)
      (min (r * n) rest.prod))
    (hk1 : 1 ≤ k) (hku : k ≤ min (r * n) rest.prod) (hkk : min (min (r * n) rest.prod) kk ≤ k) (a' : ℕ → List ℕ → ℝ)
    (ha' : ∀ t < k, ∀ q, InR rest q → a' t q = S.getD t 0 * V.get [t, ravel rest q]) :
    ApproxStep ε A U S V r n rest k kk a' := by
  obtain ⟨hU, hV, M', U', V', hM's, hsvd, e1, e2, e3⟩ := h
  obtain ⟨B, hB⟩ : ∃ B, B = M'.reshape (r :: n :: rest) := ⟨_, rfl⟩
  have hpr : (r :: n :: rest).prod = M'.shape.prod := by rw [hM's]; simp [mul_assoc]
  have hBs : B.shape = r :: n :: rest := by rw [hB]; rfl
  have hBM : B.reshape [r * n, rest.prod] = M' := by
    rw [hB, ND.reshape_reshape hpr (by rw [hM's]), ← hM's, ND.reshape_self]
  rw [← hBM] at hsvd
  obtain ⟨core, B', st⟩ := svdStep_mk hBs hsvd hk1 hku
  -- names
  obtain ⟨u, hu⟩ : ∃ u, u = min (r * n) rest.prod := ⟨_, rfl⟩
  have hprA : ([r * n, rest.prod] : List ℕ).prod = A.shape.prod := by rw [hA]; simp [mul_assoc]
  obtain ⟨a, ha⟩ : ∃ a, a = dL r (n :: rest) (entL A) zL := ⟨_, rfl⟩
  have ha0 : 0 ≤ a := by rw [ha]; exact dL_nonneg _ _ _ _
  have haf : a = frobN (A.reshape [r * n, rest.prod]) := by
    rw [ha, dL_ent_zero hA]; unfold frobN; rw [normSq_reshape' hprA]
  have hAB : dL r (n :: rest) (entL A) (entL B) ≤ ε * a := by
    rw [dL_ent hA, haf]
    refine le_trans (le_of_eq ?_) e1
    unfold frobD
    rw [← hBM, distSq_reshape (by rw [hBs, hA]) hprA]
  have hBn : dL r (n :: rest) (entL B) zL ≤ (1 + ε) * a := by
    have := dL_triangle r (n :: rest) (entL B) (entL A) zL
    rw [dL_symm r (n :: rest) (entL B) (entL A), ← ha] at this
    linarith
  -- matrices
  have hUU : ∑ j ∈ range (r * n), ∑ t ∈ range k, (U.get [j, t] - U'.get [j, t]) ^ 2 ≤ ε ^ 2 := by
    have h1 : frobD U U' ^ 2 ≤ ε ^ 2 := pow_le_pow_left₀ (Real.sqrt_nonneg _) e2 2
    rw [frobD_mat hU] at h1
    refine le_trans (sum_le_sum fun j _ => ?_) h1
    exact sum_le_sum_of_subset_of_nonneg (range_subset_range.2 hku) fun _ _ _ => sq_nonneg _
  have hVV : ∑ t ∈ range k, ∑ j ∈ range rest.prod, (V.get [t, j] - V'.get [t, j]) ^ 2 ≤ ε ^ 2 := by
    have h1 : frobD V V' ^ 2 ≤ ε ^ 2 := pow_le_pow_left₀ (Real.sqrt_nonneg _) e3 2
    rw [frobD_mat hV] at h1
    refine le_trans ?_ h1
    exact sum_le_sum_of_subset_of_nonneg (range_subset_range.2 hku) fun _ _ _ => sum_nonneg fun _ _ => sq_nonneg _
  have hoU : Orthn (range (r * n)) k fun t j => U'.get [j, t] := st.orthU.mono hku
  -- the largest singular value
  have hS : S.getD 0 0 ^ 2 ≤ ((1 + ε) * a) ^ 2 := by
    have h1 := hsvd.sum_sq le_rfl le_rfl
    have h2 : S.getD 0 0 ^ 2 ≤ ∑ t ∈ range (min (r * n) rest.prod), S.getD t 0 ^ 2 :=
      single_le_sum (f := fun t => S.getD t 0 ^ 2) (fun _ _ => sq_nonneg _) (mem_range.2 (by omega))
    rw [← h1, hBM, ← frobN_mat hM's] at h2
    refine h2.trans (pow_le_pow_left₀ (Real.sqrt_nonneg _) ?_ 2)
    refine le_trans (le_of_eq ?_) hBn
    rw [dL_ent_zero hBs]; unfold frobN; rw [hB, normSq_reshape' hpr]
  -- the next tensor
  have hnext : dL k rest a' (entL B') ≤ ε * (1 + ε) * a := by
    refine (Real.sqrt_le_left (by positivity)).2 ?_
    have e : distL k rest a' (entL B') ≤ S.getD 0 0 ^ 2 * ε ^ 2 := by
      refine le_trans ?_ (mul_le_mul_of_nonneg_left hVV (sq_nonneg _))
      unfold distL
      rw [mul_sum]
      refine sum_le_sum fun t ht => ?_
      have ht : t < k := by simpa using ht
      rw [← sum_ravel rest, sumIdx_eq_sum, sumIdx_eq_sum, mul_sum]
      refine sum_le_sum fun q hq => ?_
      have hq := mem_idxSet.1 hq
      unfold entL
      rw [ha' t ht q hq, st.hA'g t ht q hq, ← mul_sub, mul_pow]
      exact mul_le_mul_of_nonneg_right (pow_le_pow_left₀ (hsvd.nonneg t) (hsvd.antitone 0 t (Nat.zero_le _)) 2) (sq_nonneg _)
    calc distL k rest a' (entL B') ≤ S.getD 0 0 ^ 2 * ε ^ 2 := e
      _ ≤ ((1 + ε) * a) ^ 2 * ε ^ 2 := mul_le_mul_of_nonneg_right hS (sq_nonneg _)
      _ = (ε * (1 + ε) * a) ^ 2 := by ring
  have happ : ∀ T, dL r (n :: rest) (app U n k T) (app U' n k T) ≤ ε * dL k rest T zL := by
    intro T
    refine (Real.sqrt_le_left (mul_nonneg hε (dL_nonneg _ _ _ _))).2 ?_
    rw [mul_pow, dL_sq]
    exact (app_diff U U' r n k rest T).trans (mul_le_mul_of_nonneg_right hUU (distL_nonneg _ _ _ _))
  have hB'n : dL k rest (entL B') zL ≤ dL r (n :: rest) (entL B) zL := by
    refine Real.sqrt_le_sqrt ?_
    have := st.dist_next zL
    have e : SvdStep.proj U' r n zL = zL := by
      funext t q
      unfold SvdStep.proj zL
      simp
    rwa [e] at this
  refine ⟨?_, ?_, ?_, ?_⟩
  · have := dL_triangle k rest a' (entL B') zL
    rw [← ha]
    nlinarith
  · intro T
    have h1 := dL_triangle r (n :: rest) (app U n k T) (app U' n k T) zL
    have h2 : dL r (n :: rest) (app U' n k T) zL = dL k rest T zL := by
      unfold dL; rw [app_norm hoU]
    have := happ T
    linarith
  · intro G hG
    refine ⟨SvdStep.proj U' r n G, fun mu w hw => SvdStep.splits_proj G hw, ?_, ?_⟩
    · have h1 := dL_triangle k rest a' (entL B') (SvdStep.proj U' r n G)
      have h2 : dL k rest (entL B') (SvdStep.proj U' r n G) ≤ dL r (n :: rest) (entL B) G :=
        Real.sqrt_le_sqrt (st.dist_next G)
      have h3 := dL_triangle r (n :: rest) (entL B) (entL A) G
      rw [dL_symm r (n :: rest) (entL B) (entL A)] at h3
      rw [← ha]
      nlinarith
    · intro T
      have h1 := dL_triangle r (n :: rest) (entL A) (entL B) (app U n k T)
      have h2 := dL_triangle r (n :: rest) (entL B) (app U' n k T) (app U n k T)
      rw [dL_symm r (n :: rest) (app U' n k T)] at h2
      have h3 := happ T
      have h4 : dL r (n :: rest) (entL B) (app U' n k T)
          ≤ √ ((dL r (n :: rest) (entL A) G + ε * a) ^ 2 + (dL k rest a' T + ε * (1 + ε) * a) ^ 2) := by
        refine Real.sqrt_le_sqrt ?_
        rw [st.pyth]
        refine add_le_add ?_ ?_
        · have t0 := st.tail_le hG
          have htail : ∑ t ∈ Ico k (min (r * n) rest.prod), S.getD t 0 ^ 2
              ≤ ∑ t ∈ Ico kk (min (r * n) rest.prod), S.getD t 0 ^ 2 := by
            rcases le_total kk (min (r * n) rest.prod) with h | h
            · exact sum_le_sum_of_subset_of_nonneg (Ico_subset_Ico_left (by omega)) fun _ _ _ => sq_nonneg _
            · rw [Ico_eq_empty (by omega), sum_empty]; exact sum_nonneg fun _ _ => sq_nonneg _
          refine htail.trans (t0.trans ?_)
          rw [← dL_sq]
          refine pow_le_pow_left₀ (dL_nonneg _ _ _ _) ?_ 2
          have h3 := dL_triangle r (n :: rest) (entL B) (entL A) G
          rw [dL_symm r (n :: rest) (entL B) (entL A)] at h3
          linarith
        · rw [← dL_sq]
          refine pow_le_pow_left₀ (dL_nonneg _ _ _ _) ?_ 2
          have h3 := dL_triangle k rest (entL B') a' T
          rw [dL_symm k rest (entL B') a'] at h3
          linarith
      rw [← ha]
      linarith
  · intro s hs t ht
    have ho := hoU s hs t ht
    beta_reduce at ho
    have col : ∀ s < k, √ (∑ j ∈ range (r * n), (U.get [j, s] - U'.get [j, s]) ^ 2) ≤ ε := by
      intro s hs
      refine (Real.sqrt_le_left hε).2 (le_trans (sum_le_sum fun j _ => ?_) hUU)
      exact single_le_sum (f := fun t => (U.get [j, t] - U'.get [j, t]) ^ 2) (fun _ _ => sq_nonneg _) (mem_range.2 hs)
    have one : ∀ s < k, √ (∑ j ∈ range (r * n), U'.get [j, s] ^ 2) = 1 := by
      intro s hs
      have := hoU s hs s hs
      rw [if_pos rfl] at this
      simp only [sq]
      rw [this, Real.sqrt_one]
    have cs : ∀ f g : ℕ → ℝ, |∑ j ∈ range (r * n), f j * g j|
        ≤ √ (∑ j ∈ range (r * n), f j ^ 2) * √ (∑ j ∈ range (r * n), g j ^ 2) := by
      intro f g
      refine abs_le.2 ⟨?_, Real.sum_mul_le_sqrt_mul_sqrt _ f g⟩
      have := Real.sum_mul_le_sqrt_mul_sqrt (range (r * n)) (fun j => - f j) g
      simp only [neg_mul, sum_neg_distrib, neg_sq] at this
      linarith
    have e : ∑ j ∈ range (r * n), U.get [j, s] * U.get [j, t] - (if s = t then 1 else 0)
        = (∑ j ∈ range (r * n), (U.get [j, s] - U'.get [j, s]) * U'.get [j, t]
          + ∑ j ∈ range (r * n), U'.get [j, s] * (U.get [j, t] - U'.get [j, t]))
          + ∑ j ∈ range (r * n), (U.get [j, s] - U'.get [j, s]) * (U.get [j, t] - U'.get [j, t]) := by
      rw [← ho, ← sum_sub_distrib, ← sum_add_distrib, ← sum_add_distrib]
      exact sum_congr rfl fun j _ => by ring
    rw [e]
    have c1 := cs (fun j => U.get [j, s] - U'.get [j, s]) (fun j => U'.get [j, t])
    have c2 := cs (fun j => U'.get [j, s]) (fun j => U.get [j, t] - U'.get [j, t])
    have c3 := cs (fun j => U.get [j, s] - U'.get [j, s]) (fun j => U.get [j, t] - U'.get [j, t])
    rw [one t ht, mul_one] at c1
    rw [one s hs, one_mul] at c2
    have c4 := mul_le_mul (col s hs) (col t ht) (Real.sqrt_nonneg _) hε
    have d1 := col s hs
    have d2 := col t ht
    have a1 := abs_add_le (∑ j ∈ range (r * n), (U.get [j, s] - U'.get [j, s]) * U'.get [j, t]
      + ∑ j ∈ range (r * n), U'.get [j, s] * (U.get [j, t] - U'.get [j, t]))
      (∑ j ∈ range (r * n), (U.get [j, s] - U'.get [j, s]) * (U.get [j, t] - U'.get [j, t]))
    have a2 := abs_add_le (∑ j ∈ range (r * n), (U.get [j, s] - U'.get [j, s]) * U'.get [j, t])
      (∑ j ∈ range (r * n), U'.get [j, s] * (U.get [j, t] - U'.get [j, t]))
    nlinarith

/-- The shapes of what the loop computes in one step. -/
theorem step_shapes {U V : ND ℝ} {S : List ℝ} {r n u : ℕ} {rest : List ℕ} (hU : U.shape = [r * n, u])
    (hV : V.shape = [u, rest.prod]) (hS : S.length = u) {k : ℕ} (hku : k ≤ u) :
    (U.cols 0 k).reshape? [r, n, k] = .ok ((U.cols 0 k).reshape [r, n, k]) ∧
    ((ND.diag (S.take k)).matmul (V.rows 0 k)).reshape? (k :: rest)
      = .ok (((ND.diag (S.take k)).matmul (V.rows 0 k)).reshape (k :: rest)) ∧
    (∀ x, ∀ i < n, ∀ t < k, ((U.cols 0 k).reshape [r, n, k]).get [x, i, t] = U.get [x * n + i, t]) ∧
    ∀ t < k, ∀ q, InR rest q → (((ND.diag (S.take k)).matmul (V.rows 0 k)).reshape (k :: rest)).get (t :: q)
      = S.getD t 0 * V.get [t, ravel rest q] := by
  have hUc : (U.cols 0 k).shape = [r * n, k] := by rw [ND.cols_shape hU]; congr 2; omega
  have hdiag : (ND.diag (S.take k)).shape = [k, k] := by
    show [(S.take k).length, (S.take k).length] = _
    rw [List.length_take, hS, min_eq_left hku]
  have hVr : (V.rows 0 k).shape = [k, rest.prod] := by rw [ND.rows_shape hV]; congr 1; omega
  have hDV : ((ND.diag (S.take k)).matmul (V.rows 0 k)).shape = [k, rest.prod] := ND.matmul_shape' hdiag hVr
  refine ⟨?_, ?_, ?_, ?_⟩
  · unfold ND.reshape?; rw [if_pos (by rw [hUc]; simp [mul_assoc])]
  · unfold ND.reshape?; rw [if_pos (by rw [hDV]; simp)]
  · intro x i hi t ht
    rw [ND.reshape_split12 hUc x i t hi, ND.cols_get hU 0 k _ t (by omega), zero_add]
  · intro t ht q hq
    have e := ND.reshape_unmat (A := (ND.diag (S.take k)).matmul (V.rows 0 k)) (s := [k]) (t := rest) (by rw [hDV]; simp)
      (p := [t]) (q := q) ⟨ht, trivial⟩ hq
    have e' : ravel [k] [t] = t := by simp [ravel]
    rw [e'] at e
    rw [show t :: q = [t] ++ q from rfl, show k :: rest = [k] ++ rest from rfl, e, ND.matmul_get hdiag hVr, sum_eq_single t]
    · rw [ND.diag_get, if_pos rfl, ND.rows_get hV 0 k t _ (by omega), zero_add]
      congr 1
      rw [List.getD_eq_getElem?_getD, List.getElem?_take, if_pos ht, ← List.getD_eq_getElem?_getD]
    · intro y _ hy; rw [ND.diag_get, if_neg (Ne.symm hy), zero_mul]
    · intro h; exact absurd (mem_range.2 ht) h

/-- The arithmetic of the induction step. -/
theorem approx_arith {ε x a y b d : ℝ} (hε : 0 ≤ ε) (hx : 0 ≤ x) (ha : 0 ≤ a) (N : ℕ) (T : ℝ)
    (hb : b ≤ (1 + ε) ^ 2 * a) (hy : y ≤ x + (ε + ε * (1 + ε)) * a)
    (hd0 : 0 ≤ d) (hd : d ≤ √ (N : ℝ) * y + N * (4 + 2 * √ (N : ℝ)) * ε * (1 + ε) ^ (3 * N) * b)
    (hT : T ≤ (1 + ε) ^ (3 * N) * b) :
    ε * a + √ ((x + ε * a) ^ 2 + (d + ε * (1 + ε) * a) ^ 2) + ε * T
      ≤ √ ((N + 1 : ℕ) : ℝ) * x
        + (N + 1 : ℕ) * (4 + 2 * √ ((N + 1 : ℕ) : ℝ)) * ε * (1 + ε) ^ (3 * (N + 1)) * a := by
  obtain ⟨s, hs⟩ : ∃ s, s = √ (N : ℝ) := ⟨_, rfl⟩
  obtain ⟨s', hs'⟩ : ∃ s', s' = √ ((N + 1 : ℕ) : ℝ) := ⟨_, rfl⟩
  have s0 : 0 ≤ s := by rw [hs]; exact Real.sqrt_nonneg _
  have ss : s ≤ s' := by rw [hs, hs']; exact Real.sqrt_le_sqrt (by push_cast; linarith)
  have sq1 : s ^ 2 = N := by rw [hs]; exact Real.sq_sqrt (Nat.cast_nonneg _)
  have sq2 : s' = √ (1 + s ^ 2) := by rw [hs', sq1]; push_cast; rw [add_comm]
  rw [← hs] at hd
  rw [← hs']
  obtain ⟨p, hp⟩ : ∃ p, p = (1 + ε) ^ (3 * N) := ⟨_, rfl⟩
  have p1 : 1 ≤ p := by rw [hp]; exact one_le_pow₀ (by linarith)
  have hpp : (1 + ε) ^ (3 * (N + 1)) = p * (1 + ε) ^ 3 := by rw [hp, ← pow_add]; congr 1
  rw [← hp] at hd hT
  rw [hpp]
  -- the part that is not a multiple of `x`
  obtain ⟨w, hw⟩ : ∃ w, w = s * ((ε + ε * (1 + ε)) * a) + N * (4 + 2 * s) * ε * p * ((1 + ε) ^ 2 * a)
    + ε * (1 + ε) * a := ⟨_, rfl⟩
  have hN : (0 : ℝ) ≤ N := Nat.cast_nonneg _
  have w0 : 0 ≤ w := by rw [hw]; positivity
  have hdw : d + ε * (1 + ε) * a ≤ s * x + w := by
    have h1 : s * y ≤ s * (x + (ε + ε * (1 + ε)) * a) := mul_le_mul_of_nonneg_left hy s0
    have h2 : N * (4 + 2 * s) * ε * p * b ≤ N * (4 + 2 * s) * ε * p * ((1 + ε) ^ 2 * a) :=
      mul_le_mul_of_nonneg_left hb (by positivity)
    rw [hw]
    linarith
  have hroot : √ ((x + ε * a) ^ 2 + (d + ε * (1 + ε) * a) ^ 2) ≤ s' * x + (ε * a + w) := by
    have h1 : √ ((x + ε * a) ^ 2 + (d + ε * (1 + ε) * a) ^ 2) ≤ √ ((x + ε * a) ^ 2 + (s * x + w) ^ 2) := by
      refine Real.sqrt_le_sqrt (add_le_add le_rfl (pow_le_pow_left₀ (by positivity) hdw 2))
    have h2 := sqrt_pair (a := x) (b := s * x) (c := ε * a) (d := w)
    have h3 : √ (x ^ 2 + (s * x) ^ 2) = s' * x := by
      rw [show x ^ 2 + (s * x) ^ 2 = (1 + s ^ 2) * x ^ 2 by ring, Real.sqrt_mul (by positivity), Real.sqrt_sq hx, ← sq2]
    have h4 := sqrt_pair_le (c := ε * a) (d := w) (by positivity) w0
    linarith
  have hTb : ε * T ≤ ε * (p * ((1 + ε) ^ 2 * a)) :=
    mul_le_mul_of_nonneg_left (hT.trans (mul_le_mul_of_nonneg_left hb (by linarith))) hε
  have final : ε * a + (ε * a + w) + ε * (p * ((1 + ε) ^ 2 * a))
      ≤ (N + 1 : ℕ) * (4 + 2 * s') * ε * (p * (1 + ε) ^ 3) * a := by
    have g1 : 1 ≤ (1 + ε) := by linarith
    have g3 : (1 + ε) ≤ (1 + ε) ^ 3 := le_self_pow₀ g1 (by norm_num)
    have g2 : (1 + ε) ^ 2 ≤ (1 + ε) ^ 3 := pow_le_pow_right₀ g1 (by norm_num)
    have q1 : (1 + ε) ≤ p * (1 + ε) ^ 3 := by nlinarith [mul_le_mul p1 g3 (by linarith) (by linarith)]
    have q0 : 1 ≤ p * (1 + ε) ^ 3 := g1.trans q1
    have q2 : p * (1 + ε) ^ 2 ≤ p * (1 + ε) ^ 3 := mul_le_mul_of_nonneg_left g2 (by linarith)
    obtain ⟨q, hq⟩ : ∃ q, q = p * (1 + ε) ^ 3 := ⟨_, rfl⟩
    rw [← hq] at q0 q1 q2 ⊢
    have e0 : 0 ≤ ε * a := by positivity
    have t1 : ε * a ≤ ε * a * q := le_mul_of_one_le_right e0 q0
    have t2 : ε * (1 + ε) * a ≤ ε * a * q := by
      rw [show ε * (1 + ε) * a = ε * a * (1 + ε) by ring]; exact mul_le_mul_of_nonneg_left q1 e0
    have t3 : ε * (p * ((1 + ε) ^ 2 * a)) ≤ ε * a * q := by
      rw [show ε * (p * ((1 + ε) ^ 2 * a)) = ε * a * (p * (1 + ε) ^ 2) by ring]; exact mul_le_mul_of_nonneg_left q2 e0
    have t4 : s * ((ε + ε * (1 + ε)) * a) ≤ 2 * s' * (ε * a * q) := by
      have : (ε + ε * (1 + ε)) * a ≤ 2 * (ε * a * q) := by linarith
      calc s * ((ε + ε * (1 + ε)) * a) ≤ s' * (2 * (ε * a * q)) :=
            mul_le_mul ss this (by positivity) (s0.trans ss)
        _ = _ := by ring
    have t5 : N * (4 + 2 * s) * ε * p * ((1 + ε) ^ 2 * a) ≤ N * (4 + 2 * s') * (ε * a * q) := by
      rw [show N * (4 + 2 * s) * ε * p * ((1 + ε) ^ 2 * a) = N * (4 + 2 * s) * (ε * (p * ((1 + ε) ^ 2 * a))) by ring]
      exact mul_le_mul (mul_le_mul_of_nonneg_left (by linarith) hN) t3 (by positivity) (mul_nonneg hN (by linarith))
    have e5 : ((N + 1 : ℕ) : ℝ) * (4 + 2 * s') * ε * q * a
        = N * (4 + 2 * s') * (ε * a * q) + 4 * (ε * a * q) + 2 * s' * (ε * a * q) := by push_cast; ring
    rw [e5, hw]
    linarith
  linarith

theorem ttSvdLoop_approx {la : LinAlg} {ε : ℝ} (hε : 0 ≤ ε) (hs : la.SVDThinApprox ε) :
    ∀ (sh : List ℕ) (A : ND ℝ) (r : ℕ) (ranks : List ℕ),
    A.shape = r :: sh → 0 < r → (∀ m ∈ sh, 0 < m) → ranks.length + 1 = sh.length →
    ∃ cs disc, ttSvdLoop la A r sh ranks = .ok (cs, disc) ∧ TTChain r cs 1 ∧ coreShape cs = sh ∧
      (∀ C ∈ cs.dropLast, C.NearLeftOrthogonal (2 * ε + ε ^ 2)) ∧ 
      (∀ k < ranks.length, 1 ≤ bnd cs 1 (k + 1) ∧ bnd cs 1 (k + 1) ≤ max 1 (ranks.getD k 0)) ∧
      dL r sh (fun x p => ttVal cs p x 0) zL ≤ (1 + ε) ^ (3 * ranks.length) * dL r sh (entL A) zL ∧
      ∀ G, (∀ mu < ranks.length, SplitsL r sh G mu (ranks.getD mu 0)) →
        dL r sh (entL A) (fun x p => ttVal cs p x 0) ≤ √ (ranks.length : ℝ) * dL r sh (entL A) G
          + ranks.length * (4 + 2 * √ (ranks.length : ℝ)) * ε * (1 + ε) ^ (3 * ranks.length) * dL r sh (entL A) zL
  | [], A, r, ranks, _, _, _, hl => by simp at hl
  | [n], A, r, ranks, hA, hr, hpos, hl => by
    have : ranks = [] := by
      have : ranks.length = 0 := by simpa using hl
      exact List.eq_nil_of_length_eq_zero this
    subst this
    have hre : A.reshape? [r, n, 1] = .ok (A.reshape [r, n, 1]) := by
      unfold ND.reshape?; rw [if_pos (by rw [hA]; simp)]
    have hval : ∀ x < r, ∀ p, InR [n] p → ttVal [A.reshape [r, n, 1]] p x 0 = entL A x p := by
      intro x _ p hp
      match p, hp with
      | [i], _ =>
        have e := ND.reshape_add_last_one (A := A) (s := [r, n]) hA [x, i]
        rw [ttVal_cons (C := A.reshape [r, n, 1]) (r := r) (n := n) (t := 1) rfl, sum_range_one, ttVal_nil_nil, if_pos rfl, mul_one,
          show [x, i, 0] = [x, i] ++ [0] from rfl, show [r, n, 1] = [r, n] ++ [1] from rfl, e]
        rfl
    refine ⟨[A.reshape [r, n, 1]], [], ?_, ⟨n, 1, rfl, rfl⟩, rfl, by simp, fun k hk => by simp at hk, ?_, ?_⟩
    · rw [ttSvdLoop, ttSvdLast, hre]; rfl
    · rw [dL_congr (G' := zL) hval fun _ _ _ _ => rfl]; simp
    · intro G _
      rw [dL_congr (F' := entL A) (fun _ _ _ _ => rfl) hval]
      have : dL r [n] (entL A) (entL A) = 0 := by
        unfold dL distL; simp
      rw [this]; simp
  | n :: m :: rest', A, r, [], hA, hr, hpos, hl => by simp at hl
  | n :: m :: rest', A, r, kk :: ranks, hA, hr, hpos, hl => by
    have hn : 0 < n := hpos n (by simp)
    obtain ⟨rest, hrest⟩ : ∃ rest, rest = m :: rest' := ⟨_, rfl⟩
    have hposr : ∀ w ∈ rest, 0 < w := fun w hw => hpos w (by rw [hrest] at hw; simp [hw])
    have hM : A.matricize [0, 1] true = A.reshape [r * n, rest.prod] := by
      have := matricize_range_true A 2 (by rw [hA]; simp)
      rw [hA] at this
      have e1 : (List.take 2 (r :: n :: m :: rest')).prod = r * n := by simp
      have e2 : (List.drop 2 (r :: n :: m :: rest')).prod = rest.prod := by rw [hrest]; rfl
      rw [e1, e2] at this
      exact this
    have hap := hs (A.matricize [0, 1] true) (r * n) rest.prod (by rw [hM]; rfl)
    generalize hUSV : la.svdThin (A.matricize [0, 1] true) = USV at hap
    rw [hM] at hap
    obtain ⟨U, S, V⟩ := USV
    simp only at hap
    have hUs := hap.1
    have hVs := hap.2.1
    have hSl : S.length = min (r * n) rest.prod := by
      obtain ⟨_, _, M', U', V', _, h, _⟩ := hap
      exact h.length
    have hU1 : U.dim 1 = min (r * n) rest.prod := by simp [ND.dim, hUs]
    have hu : 1 ≤ min (r * n) rest.prod := le_min (Nat.mul_pos hr hn) (prod_pos_of hposr)
    generalize hk : max (min (U.dim 1) kk) 1 = k
    rw [hU1] at hk
    have hk1 : 1 ≤ k := by rw [← hk]; exact le_max_right _ _
    have hku : k ≤ min (r * n) rest.prod := by rw [← hk]; omega
    obtain ⟨s3, s4, s5, s6⟩ := step_shapes hUs hVs hSl hku
    generalize hcore : (U.cols 0 k).reshape [r, n, k] = core at s3 s5
    generalize hA' : ((ND.diag (S.take k)).matmul (V.rows 0 k)).reshape (k :: rest) = A' at s4 s6
    have hcs : core.shape = [r, n, k] := by rw [← hcore]; rfl
    have hA's : A'.shape = k :: rest := by rw [← hA']; rfl
    have st := approxStep hε (kk := kk) (by rw [hA, hrest]) hap hk1 hku (by rw [← hk]; omega) (entL A') s6
    obtain ⟨cs, disc, c1, c2, c3, c4, c6, c7, c8⟩ := ttSvdLoop_approx hε hs (m :: rest') A' k ranks
      (by rw [hA's, hrest]) hk1 (by rw [← hrest]; exact hposr) (by simpa using hl)
    rw [← hrest] at c1 c3 c7 c8
    have hcne : cs ≠ [] := by
      intro h; rw [h, hrest] at c3; simp [coreShape] at c3
    have hval : ∀ x < r, ∀ p, InR (n :: rest) p →
        ttVal (core :: cs) p x 0 = app U n k (fun t q => ttVal cs q t 0) x p := by
      intro x _ p hp
      match p, hp with
      | i :: q, hp =>
        rw [ttVal_cons hcs]
        show _ = ∑ t ∈ range k, _
        exact sum_congr rfl fun t ht => by rw [s5 x i hp.1 t (by simpa using ht)]
    refine ⟨core :: cs, S.drop k :: disc, ?_, ⟨n, k, hcs, c2⟩, ?_, ?_, ?_, ?_, ?_⟩
    · rw [ttSvdLoop, hUSV]
      dsimp only
      rw [hU1, hk, s3]
      dsimp only
      rw [← hrest, s4]
      dsimp only
      rw [c1]
    · show core.dim 1 :: coreShape cs = _
      rw [c3, (dim_of_shape3 hcs).2.1, hrest]
    · intro E hE
      rw [List.dropLast_cons_of_ne_nil hcne] at hE
      rcases List.mem_cons.1 hE with rfl | hE
      · intro a ha b hb
        rw [(dim_of_shape3 hcs).2.2] at ha hb
        rw [(dim_of_shape3 hcs).1, (dim_of_shape3 hcs).2.1]
        have := st.orth a ha b hb
        rw [range_mul_sum] at this
        have e : ∑ i ∈ range r, ∑ j ∈ range n, E.get [i, j, a] * E.get [i, j, b]
            = ∑ i ∈ range r, ∑ j ∈ range n, U.get [i * n + j, a] * U.get [i * n + j, b] :=
          sum_congr rfl fun i _ => sum_congr rfl fun j hj => by
            rw [s5 i j (by simpa using hj) a ha, s5 i j (by simpa using hj) b hb]
        rw [e]
        exact this
      · exact c4 E hE
    · intro j hj
      cases j with
      | zero =>
        rw [bnd_succ, bnd_chain c2]
        refine ⟨hk1, ?_⟩
        rw [← hk, List.getD_cons_zero]; omega
      | succ j =>
        rw [bnd_succ, List.getD_cons_succ]
        exact c6 j (by simpa using hj)
    · rw [← hrest, dL_congr (G' := zL) hval fun _ _ _ _ => rfl, List.length_cons]
      have h1 := st.grow fun t q => ttVal cs q t 0
      have h2 := mul_le_mul_of_nonneg_left c7 (show 0 ≤ 1 + ε by linarith)
      have h3 := mul_le_mul_of_nonneg_left st.next (show 0 ≤ (1 + ε) * (1 + ε) ^ (3 * ranks.length) by positivity)
      have e : (1 + ε) ^ (3 * (ranks.length + 1)) = (1 + ε) * (1 + ε) ^ (3 * ranks.length) * (1 + ε) ^ 2 := by ring
      rw [e]
      linarith
    · intro G hG
      rw [← hrest] at hG ⊢
      rw [dL_congr (F' := entL A) (fun _ _ _ _ => rfl) hval]
      have h0 := hG 0 (by simp)
      rw [List.getD_cons_zero] at h0
      obtain ⟨G', g1, g2, g3⟩ := st.err G h0
      have IH := c8 G' fun mu hmu => g1 mu _ (by
        have := hG (mu + 1) (by simpa using hmu)
        rwa [List.getD_cons_succ] at this)
      refine (g3 _).trans ?_
      rw [List.length_cons]
      exact approx_arith hε (dL_nonneg _ _ _ _) (dL_nonneg _ _ _ _) ranks.length _ st.next g2 (dL_nonneg _ _ _ _) IH c7

end TTS
