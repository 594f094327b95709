import Verif.Proofs.Round
import Verif.Proofs.Lossless
import Verif.Proofs.Psi

/-! TT-SVD. -/

namespace TTS

open Finset

/-- One step of the left-to-right sweep. -/
structure SvdStep (A U : ND ℝ) (S : List ℝ) (V core A' : ND ℝ) (r n : ℕ) (rest : List ℕ) (k : ℕ) : Prop where
  hA : A.shape = r :: n :: rest
  svd : IsSVD (A.reshape [r * n, rest.prod]) U S V (r * n) rest.prod (min (r * n) rest.prod) (min (r * n) rest.prod)
  kpos : 1 ≤ k
  kle : k ≤ min (r * n) rest.prod
  hcore : core.shape = [r, n, k]
  hcoreg : ∀ x < r, ∀ i < n, ∀ t < k, core.get [x, i, t] = U.get [x * n + i, t]
  hA' : A'.shape = k :: rest
  hA'g : ∀ t < k, ∀ q, InR rest q → A'.get (t :: q) = S.getD t 0 * V.get [t, ravel rest q]
  orth : core.LeftOrthogonal

theorem prod_pos_of {l : List ℕ} (h : ∀ n ∈ l, 0 < n) : 0 < l.prod := List.prod_pos h

theorem svdStep_exists {la : LinAlg} (hs : la.SVDThinOk) {M A : ND ℝ} {r n : ℕ} {rest : List ℕ}
    (hM : M = A.reshape [r * n, rest.prod])
    (hA : A.shape = r :: n :: rest) (hr : 0 < r) (hn : 0 < n) (hrest : ∀ m ∈ rest, 0 < m) (kk : ℕ) :
    let U := (la.svdThin M).1
    let S := (la.svdThin M).2.1
    let V := (la.svdThin M).2.2
    let k := max (min (U.dim 1) kk) 1
    k = max (min (min (r * n) rest.prod) kk) 1 ∧ S.length = min (r * n) rest.prod ∧
    (U.cols 0 k).reshape? [r, n, k] = .ok ((U.cols 0 k).reshape [r, n, k]) ∧
    ((ND.diag (S.take k)).matmul (V.rows 0 k)).reshape? (k :: rest)
      = .ok (((ND.diag (S.take k)).matmul (V.rows 0 k)).reshape (k :: rest)) ∧
    SvdStep A U S V ((U.cols 0 k).reshape [r, n, k]) (((ND.diag (S.take k)).matmul (V.rows 0 k)).reshape (k :: rest))
      r n rest k := by
  have hsvd := hs M (r * n) rest.prod (by rw [hM]; rfl)
  rw [hM] at hsvd ⊢
  generalize la.svdThin (A.reshape [r * n, rest.prod]) = USV at hsvd ⊢
  obtain ⟨U, S, V⟩ := USV
  simp only at hsvd ⊢
  have hU1 : U.dim 1 = min (r * n) rest.prod := by simp [ND.dim, hsvd.shapeU]
  rw [hU1]
  have hu : 1 ≤ min (r * n) rest.prod := le_min (Nat.mul_pos hr hn) (prod_pos_of hrest)
  generalize hw : min (r * n) rest.prod = u at *
  obtain ⟨k, hk⟩ : ∃ k, k = max (min u kk) 1 := ⟨_, rfl⟩
  rw [← hk]
  have hk1 : 1 ≤ k := by rw [hk]; exact le_max_right _ _
  have hku : k ≤ u := by rw [hk]; omega
  have hUc : (U.cols 0 k).shape = [r * n, k] := by rw [ND.cols_shape hsvd.shapeU]; congr 2; omega
  have hdiag : (ND.diag (S.take k)).shape = [k, k] := by
    show [(S.take k).length, (S.take k).length] = _
    rw [List.length_take, hsvd.length, hw, min_eq_left hku]
  have hVr : (V.rows 0 k).shape = [k, rest.prod] := by rw [ND.rows_shape hsvd.shapeV]; congr 1; omega
  have hDV : ((ND.diag (S.take k)).matmul (V.rows 0 k)).shape = [k, rest.prod] := ND.matmul_shape' hdiag hVr
  have hcg : ∀ x, ∀ i < n, ∀ t < k, ((U.cols 0 k).reshape [r, n, k]).get [x, i, t] = U.get [x * n + i, t] := by
    intro x i hi t ht
    rw [ND.reshape_split12 hUc x i t hi, ND.cols_get hsvd.shapeU 0 k _ t (by omega), zero_add]
  refine ⟨rfl, hsvd.length.trans hw, ?_, ?_, hA, by rw [hw]; exact hsvd, hk1, by rw [hw]; exact hku, rfl, ?_, rfl, ?_, ?_⟩
  · unfold ND.reshape?; rw [if_pos (by rw [hUc]; simp [mul_assoc])]
  · unfold ND.reshape?; rw [if_pos (by rw [hDV]; simp)]
  · intro x _ i hi t ht; exact hcg x i hi t ht
  · intro t ht q hq
    have e := ND.reshape_unmat (A := (ND.diag (S.take k)).matmul (V.rows 0 k)) (s := [k]) (t := rest) (by rw [hDV]; simp)
      (p := [t]) (q := q) ⟨ht, trivial⟩ hq
    have e' : ravel [k] [t] = t := by simp [ravel]
    rw [e'] at e
    rw [show t :: q = [t] ++ q from rfl, show k :: rest = [k] ++ rest from rfl, e, ND.matmul_get hdiag hVr, sum_eq_single t]
    · rw [ND.diag_get, if_pos rfl, ND.rows_get hsvd.shapeV 0 k t _ (by omega), zero_add]
      congr 1
      rw [List.getD_eq_getElem?_getD, List.getElem?_take, if_pos ht, ← List.getD_eq_getElem?_getD]
    · intro y _ hy; rw [ND.diag_get, if_neg (Ne.symm hy), zero_mul]
    · intro h; exact absurd (mem_range.2 ht) h
  · intro x hx y hy
    have hx : x < k := hx
    have hy : y < k := hy
    show ∑ i ∈ range r, ∑ j ∈ range n, _ = _
    rw [← hsvd.orthU x (by omega) y (by omega), range_mul_sum]
    refine sum_congr rfl fun i _ => sum_congr rfl fun j hj => ?_
    have hj : j < n := by simpa using hj
    rw [hcg i j hj x hx, hcg i j hj y hy]

/-- `G`, a function of a first index below `r` and of the modes `sh`, splits after `mu + 1` modes into `m` products. -/
def SplitsL (r : ℕ) (sh : List ℕ) (G : ℕ → List ℕ → ℝ) (mu m : ℕ) : Prop :=
  ∃ (f : ℕ → List ℕ → ℕ → ℝ) (g : List ℕ → ℕ → ℝ), ∀ x < r, ∀ p q, p.length = mu + 1 → InR sh (p ++ q) →
    G x (p ++ q) = ∑ a ∈ range m, f x p a * g q a

/-- Squared distance. -/
def distL (r : ℕ) (sh : List ℕ) (F G : ℕ → List ℕ → ℝ) : ℝ :=
  ∑ x ∈ range r, sumIdx sh fun p => (F x p - G x p) ^ 2

/-- The entries of `A` with the first index apart. -/
def entL (A : ND ℝ) (x : ℕ) (p : List ℕ) : ℝ := A.get (x :: p)

namespace SvdStep
variable {A U : ND ℝ} {S : List ℝ} {V core A' : ND ℝ} {r n : ℕ} {rest : List ℕ} {k : ℕ}

theorem orthU (h : SvdStep A U S V core A' r n rest k) :
    Orthn (range (r * n)) (min (r * n) rest.prod) fun t j => U.get [j, t] := h.svd.orthU

theorem orthV (h : SvdStep A U S V core A' r n rest k) :
    Orthn (idxSet rest) (min (r * n) rest.prod) fun t q => V.get [t, ravel rest q] := by
  intro s hs t ht
  have := h.svd.orthV s hs t ht
  rw [← sumIdx_eq_sum, sum_ravel rest fun j => V.get [s, j] * V.get [t, j]]
  exact this

theorem sum_step (F : ℕ → List ℕ → ℝ) :
    ∑ x ∈ range r, sumIdx (n :: rest) (fun p => F x p)
      = ∑ q ∈ idxSet rest, ∑ x ∈ range r, ∑ i ∈ range n, F x (i :: q) := by
  have : ∀ x, sumIdx (n :: rest) (fun p => F x p) = ∑ q ∈ idxSet rest, ∑ i ∈ range n, F x (i :: q) := by
    intro x
    rw [sumIdx_cons, sum_comm]
    exact sum_congr rfl fun i _ => sumIdx_eq_sum _
  simp only [this]
  rw [sum_comm]

theorem val (h : SvdStep A U S V core A' r n rest k) {x i : ℕ} (hx : x < r) (hi : i < n) {q : List ℕ}
    (hq : InR rest q) :
    A.get (x :: i :: q) = ∑ t ∈ range (min (r * n) rest.prod), U.get [x * n + i, t] * S.getD t 0 * V.get [t, ravel rest q] := by
  rw [h.svd.mul _ ((ND.lt_mul_iff hi).2 hx) _ (ravel_lt hq)]
  have := ND.reshape_mat (A := A) (s := [r, n]) (t := rest) h.hA (p := [x, i]) (q := q) ⟨hx, hi, trivial⟩ hq
  have e1 : ([r, n] : List ℕ).prod = r * n := by simp
  have e2 : ravel [r, n] [x, i] = x * n + i := by simp [ravel]
  rw [e1, e2] at this
  exact this.symm

/-- The rest as seen through the left singular vectors. -/
noncomputable def proj (U : ND ℝ) (r n : ℕ) (G : ℕ → List ℕ → ℝ) (t : ℕ) (q : List ℕ) : ℝ :=
  ∑ x ∈ range r, ∑ i ∈ range n, G x (i :: q) * U.get [x * n + i, t]

theorem next_eq_proj (h : SvdStep A U S V core A' r n rest k) {t : ℕ} (ht : t < k) {q : List ℕ} (hq : InR rest q) :
    entL A' t q = proj U r n (entL A) t q := by
  unfold entL
  rw [h.hA'g t ht q hq]
  have ht' : t < min (r * n) rest.prod := ht.trans_le h.kle
  have := h.orthU.inner (fun u => S.getD u 0 * V.get [u, ravel rest q]) (fun u => if u = t then 1 else 0)
  have e2 : ∀ f : ℕ → ℝ, ∑ u ∈ range (min (r * n) rest.prod), (if u = t then (1 : ℝ) else 0) * f u = f t := by
    intro f
    rw [sum_eq_single t]
    · simp
    · intro u _ hu; simp [hu]
    · intro hh; exact absurd (mem_range.2 ht') hh
  simp only [e2, mul_comm _ (ite _ _ _)] at this
  rw [← this, range_mul_sum]
  unfold proj
  refine sum_congr rfl fun x hx => sum_congr rfl fun i hi => ?_
  beta_reduce
  rw [h.val (by simpa using hx) (by simpa using hi) hq]
  congr 1
  exact sum_congr rfl fun u _ => by ring

theorem divmod {i n : ℕ} (x : ℕ) (hi : i < n) : (x * n + i) / n = x ∧ (x * n + i) % n = i := by
  rw [mul_comm x n]
  exact ⟨by rw [Nat.mul_add_div (by omega), Nat.div_eq_of_lt hi, add_zero], by
    rw [Nat.mul_add_mod, Nat.mod_eq_of_lt hi]⟩

theorem dist_proj (h : SvdStep A U S V core A' r n rest k) (F G : ℕ → List ℕ → ℝ) :
    distL k rest (proj U r n F) (proj U r n G) ≤ distL r (n :: rest) F G := by
  unfold distL
  rw [sum_step]
  simp only [sumIdx_eq_sum]
  rw [sum_comm]
  refine sum_le_sum fun q _ => ?_
  have hb := (h.orthU.mono h.kle).bessel (fun j => F (j / n) (j % n :: q) - G (j / n) (j % n :: q))
  rw [range_mul_sum] at hb
  have r1 : ∑ x ∈ range r, ∑ i ∈ range n, (F ((x * n + i) / n) ((x * n + i) % n :: q)
      - G ((x * n + i) / n) ((x * n + i) % n :: q)) ^ 2
      = ∑ x ∈ range r, ∑ i ∈ range n, (F x (i :: q) - G x (i :: q)) ^ 2 :=
    sum_congr rfl fun x _ => sum_congr rfl fun i hi => by
      rw [(divmod x (mem_range.1 hi)).1, (divmod x (mem_range.1 hi)).2]
  rw [r1] at hb
  refine le_trans (le_of_eq ?_) hb
  refine sum_congr rfl fun t _ => ?_
  congr 1
  rw [range_mul_sum]
  unfold proj
  rw [← sum_sub_distrib]
  refine sum_congr rfl fun x _ => ?_
  rw [← sum_sub_distrib]
  refine sum_congr rfl fun i hi => ?_
  rw [(divmod x (mem_range.1 hi)).1, (divmod x (mem_range.1 hi)).2]; ring

theorem dist_next (h : SvdStep A U S V core A' r n rest k) (G : ℕ → List ℕ → ℝ) :
    distL k rest (entL A') (proj U r n G) ≤ distL r (n :: rest) (entL A) G := by
  refine le_trans (le_of_eq ?_) (h.dist_proj (entL A) G)
  unfold distL
  refine sum_congr rfl fun t ht => sumIdx_congr fun q hq => ?_
  rw [h.next_eq_proj (by simpa using ht) hq]

theorem splits_proj (G : ℕ → List ℕ → ℝ) {mu w : ℕ} (hG : SplitsL r (n :: rest) G (mu + 1) w) :
    SplitsL k rest (proj U r n G) mu w := by
  obtain ⟨f, g, hfg⟩ := hG
  refine ⟨fun t p a => ∑ x ∈ range r, ∑ i ∈ range n, f x (i :: p) a * U.get [x * n + i, t], g, ?_⟩
  intro t _ p q hp hpq
  unfold proj
  have e : ∀ x ∈ range r, ∀ i ∈ range n, G x (i :: (p ++ q)) * U.get [x * n + i, t]
      = ∑ a ∈ range w, f x (i :: p) a * U.get [x * n + i, t] * g q a := by
    intro x hx i hi
    rw [← List.cons_append, hfg x (by simpa using hx) (i :: p) q (by simp [hp])
      (show i < n ∧ InR rest (p ++ q) from ⟨by simpa using hi, hpq⟩), sum_mul]
    exact sum_congr rfl fun a _ => by ring
  rw [sum_congr rfl fun x hx => sum_congr rfl fun i hi => e x hx i hi]
  rw [sum_congr rfl fun x _ => sum_comm, sum_comm]
  refine sum_congr rfl fun a _ => ?_
  rw [sum_mul]
  exact sum_congr rfl fun x _ => by rw [sum_mul]

theorem tail_le (h : SvdStep A U S V core A' r n rest k) {G : ℕ → List ℕ → ℝ} {w : ℕ}
    (hG : SplitsL r (n :: rest) G 0 w) :
    ∑ t ∈ Ico w (min (r * n) rest.prod), S.getD t 0 ^ 2 ≤ distL r (n :: rest) (entL A) G := by
  obtain ⟨f, g, hfg⟩ := hG
  have ey := eckart_young h.svd le_rfl le_rfl (r := w)
    (fun j a => f (j / n) [j % n] a) (fun a j => g (unravel rest j) a)
  refine ey.trans (le_of_eq ?_)
  unfold distL
  rw [sum_step, range_mul_sum]
  have inner : ∀ x ∈ range r, ∀ i ∈ range n, ∑ j ∈ range rest.prod,
      ((A.reshape [r * n, rest.prod]).get [x * n + i, j]
        - ∑ a ∈ range w, f ((x * n + i) / n) [(x * n + i) % n] a * g (unravel rest j) a) ^ 2
      = ∑ q ∈ idxSet rest, (entL A x (i :: q) - G x (i :: q)) ^ 2 := by
    intro x hx i hi
    have hx : x < r := by simpa using hx
    have hi : i < n := by simpa using hi
    rw [(divmod x hi).1, (divmod x hi).2, ← sum_ravel, sumIdx_eq_sum]
    refine sum_congr rfl fun q hq => ?_
    have hq := mem_idxSet.1 hq
    rw [unravel_ravel hq, ← show G x (i :: q) = _ from hfg x hx [i] q rfl ⟨hi, hq⟩]
    congr 2
    rw [← h.svd.mul _ ((ND.lt_mul_iff hi).2 hx) _ (ravel_lt hq)]
    exact (h.val hx hi hq).symm
  rw [sum_congr rfl fun x hx => sum_congr rfl fun i hi => inner x hx i hi]
  rw [sum_congr rfl fun x _ => sum_comm, sum_comm]

end SvdStep

theorem ttSvdLoop_spec {la : LinAlg} (hs : la.SVDThinOk) : ∀ (sh : List ℕ) (A : ND ℝ) (r : ℕ) (ranks : List ℕ),
    A.shape = r :: sh → 0 < r → (∀ m ∈ sh, 0 < m) → ranks.length + 1 = sh.length →
    ∃ cs disc, ttSvdLoop la A r sh ranks = .ok (cs, disc) ∧ TTChain r cs 1 ∧ coreShape cs = sh ∧
      (∀ C ∈ cs.dropLast, C.LeftOrthogonal) ∧ disc.length = ranks.length ∧
      (∀ k < ranks.length, 1 ≤ bnd cs 1 (k + 1) ∧ bnd cs 1 (k + 1) ≤ max 1 (ranks.getD k 0)) ∧
      distL r sh (entL A) (fun x p => ttVal cs p x 0) = (disc.map sumSq).sum ∧
      ∀ G, (∀ mu < ranks.length, SplitsL r sh G mu (ranks.getD mu 0)) →
        (disc.map sumSq).sum ≤ ranks.length * distL r sh (entL A) G
  | [], A, r, ranks, _, _, _, hl => by simp at hl
  | [n], A, r, ranks, hA, hr, hpos, hl => by
    have : ranks = [] := by
      have : ranks.length = 0 := by simpa using hl
      exact List.eq_nil_of_length_eq_zero this
    subst this
    have hre : A.reshape? [r, n, 1] = .ok (A.reshape [r, n, 1]) := by
      unfold ND.reshape?; rw [if_pos (by rw [hA]; simp)]
    refine ⟨[A.reshape [r, n, 1]], [], ?_, ⟨n, 1, rfl, rfl⟩, rfl, by simp, rfl, fun k hk => by simp at hk, ?_, ?_⟩
    · rw [ttSvdLoop, ttSvdLast, hre]; rfl
    · simp only [List.map_nil, List.sum_nil]
      refine sum_eq_zero fun x _ => sumIdx_eq_zero fun p hp => ?_
      match p, hp with
      | [i], _ =>
        have e := ND.reshape_add_last_one (A := A) (s := [r, n]) hA [x, i]
        beta_reduce
        rw [ttVal_cons (C := A.reshape [r, n, 1]) (r := r) (n := n) (t := 1) rfl, sum_range_one, ttVal_nil_nil, if_pos rfl, mul_one,
          show [x, i, 0] = [x, i] ++ [0] from rfl, show [r, n, 1] = [r, n] ++ [1] from rfl, e]
        unfold entL
        rw [sub_self, sq, mul_zero]
    · intro G _; simp
  | n :: m :: rest', A, r, [], hA, hr, hpos, hl => by simp at hl
  | n :: m :: rest', A, r, kk :: ranks, hA, hr, hpos, hl => by
    have hn : 0 < n := hpos n (by simp)
    obtain ⟨rest, hrest⟩ : ∃ rest, rest = m :: rest' := ⟨_, rfl⟩
    have hposr : ∀ w ∈ rest, 0 < w := fun w hw => hpos w (by rw [hrest] at hw; simp [hw])
    have hM : A.matricize [0, 1] true = A.reshape [r * n, rest.prod] := by
      have := matricize_range_true A 2 (by rw [hA]; simp)
      rw [hA] at this
      have e1 : (List.take 2 (r :: n :: m :: rest')).prod = r * n := by simp
      have e2 : (List.drop 2 (r :: n :: m :: rest')).prod = rest.prod := by rw [hrest]; rfl
      rw [e1, e2] at this
      exact this
    have hex := svdStep_exists hs hM (by rw [hA, hrest]) hr hn hposr kk
    dsimp only at hex
    obtain ⟨s1, s2, s3, s4, st⟩ := hex
    generalize hUSV : la.svdThin (A.matricize [0, 1] true) = USV at s1 s2 s3 s4 st
    obtain ⟨U, S, V⟩ := USV
    simp only at s1 s2 s3 s4 st
    generalize hk : max (min (U.dim 1) kk) 1 = k at s1 s2 s3 s4 st
    generalize hcore : (U.cols 0 k).reshape [r, n, k] = core at s1 s2 s3 s4 st
    generalize hA' : ((ND.diag (S.take k)).matmul (V.rows 0 k)).reshape (k :: rest) = A' at s1 s2 s3 s4 st
    obtain ⟨cs, disc, c1, c2, c3, c4, c5, c6, c7, c8⟩ := ttSvdLoop_spec hs (m :: rest') A' k ranks
      (by rw [st.hA', hrest]) st.kpos (by rw [← hrest]; exact hposr) (by simpa using hl)
    rw [← hrest] at c1 c3 c7 c8
    have hcne : cs ≠ [] := by
      intro h; rw [h, hrest] at c3; simp [coreShape] at c3
    refine ⟨core :: cs, S.drop k :: disc, ?_, ⟨n, k, st.hcore, c2⟩, ?_, ?_, by simp [c5], ?_, ?_, ?_⟩
    · rw [ttSvdLoop, hUSV]
      dsimp only
      rw [hk, s3]
      dsimp only
      rw [← hrest, s4]
      dsimp only
      rw [c1]
    · show core.dim 1 :: coreShape cs = _
      rw [c3, (dim_of_shape3 st.hcore).2.1, hrest]
    · intro E hE
      rw [List.dropLast_cons_of_ne_nil hcne] at hE
      rcases List.mem_cons.1 hE with rfl | hE
      · exact st.orth
      · exact c4 E hE
    · intro j hj
      cases j with
      | zero =>
        rw [bnd_succ, bnd_chain c2]
        refine ⟨st.kpos, ?_⟩
        rw [s1, List.getD_cons_zero]; omega
      | succ j =>
        rw [bnd_succ, List.getD_cons_succ]
        exact c6 j (by simpa using hj)
    · -- the error
      rw [← hrest, List.map_cons, List.sum_cons, ← c7, sumSq_drop, s2]
      unfold distL
      rw [SvdStep.sum_step]
      obtain ⟨u, hu⟩ : ∃ u, u = min (r * n) rest.prod := ⟨_, rfl⟩
      have hku : k ≤ u := by rw [hu]; exact st.kle
      let b : List ℕ → ℕ → ℝ := fun q t =>
        if t < k then entL A' t q - ttVal cs q t 0 else S.getD t 0 * V.get [t, ravel rest q]
      have hdiff : ∀ q ∈ idxSet rest, ∑ x ∈ range r, ∑ i ∈ range n,
          (entL A x (i :: q) - ttVal (core :: cs) (i :: q) x 0) ^ 2 = ∑ t ∈ range u, b q t ^ 2 := by
        intro q hq
        have hq := mem_idxSet.1 hq
        rw [← (hu ▸ st.orthU : Orthn (range (r * n)) u _).parseval, range_mul_sum]
        refine sum_congr rfl fun x hx => sum_congr rfl fun i hi => ?_
        have hx : x < r := by simpa using hx
        have hi : i < n := by simpa using hi
        congr 1
        show A.get (x :: i :: q) - _ = _
        rw [st.val hx hi hq, ttVal_cons st.hcore, ← hu,
          ← sum_range_add_sum_Ico _ hku, ← sum_range_add_sum_Ico (fun t => b q t * _) hku, add_sub_right_comm,
          ← sum_sub_distrib]
        congr 1
        · refine sum_congr rfl fun t ht => ?_
          have ht : t < k := by simpa using ht
          simp only [b, if_pos ht]
          unfold entL
          rw [st.hA'g t ht q hq, st.hcoreg x hx i hi t ht]; ring
        · refine sum_congr rfl fun t ht => ?_
          have ht : ¬ t < k := by simp at ht; omega
          simp only [b, if_neg ht]; ring
      rw [sum_congr rfl hdiff]
      have hsplit : ∀ q, ∑ t ∈ range u, b q t ^ 2
          = ∑ t ∈ range k, (entL A' t q - ttVal cs q t 0) ^ 2
            + ∑ t ∈ Ico k u, S.getD t 0 ^ 2 * V.get [t, ravel rest q] ^ 2 := by
        intro q
        rw [← sum_range_add_sum_Ico _ hku]
        congr 1
        · exact sum_congr rfl fun t ht => by simp only [b, if_pos (mem_range.1 ht)]
        · refine sum_congr rfl fun t ht => ?_
          have ht : ¬ t < k := by simp at ht; omega
          simp only [b, if_neg ht]; ring
      simp only [hsplit]
      rw [sum_add_distrib, add_comm, ← hu]
      congr 1
      · rw [sum_comm]
        refine sum_congr rfl fun t ht => ?_
        rw [← mul_sum]
        have htu : t < min (r * n) rest.prod := by have := (mem_Ico.1 ht).2; omega
        have := st.orthV t htu t htu
        rw [if_pos rfl] at this
        simp only [sq (V.get _)]
        rw [this, mul_one]
      · rw [sum_comm]
        exact sum_congr rfl fun t _ => by rw [sumIdx_eq_sum]
    · -- comparison with any competitor
      intro G hG
      rw [← hrest] at hG ⊢
      have IH := c8 (SvdStep.proj U r n G) (fun mu hmu => SvdStep.splits_proj G (by
        have := hG (mu + 1) (by simpa using hmu)
        rwa [List.getD_cons_succ] at this))
      have t0 := st.tail_le (hG 0 (by simp))
      rw [List.getD_cons_zero] at t0
      have dn := st.dist_next G
      rw [List.map_cons, List.sum_cons, sumSq_drop, s2, List.length_cons]
      push_cast
      have htail : ∑ t ∈ Ico k (min (r * n) rest.prod), S.getD t 0 ^ 2
          ≤ ∑ t ∈ Ico kk (min (r * n) rest.prod), S.getD t 0 ^ 2 := by
        rcases le_total kk (min (r * n) rest.prod) with h | h
        · exact sum_le_sum_of_subset_of_nonneg (Ico_subset_Ico_left (by omega)) fun _ _ _ => sq_nonneg _
        · rw [Ico_eq_empty (by omega), sum_empty]; exact sum_nonneg fun _ _ => sq_nonneg _
      have i1 := mul_le_mul_of_nonneg_left dn (Nat.cast_nonneg (α := ℝ) ranks.length)
      linarith

end TTS
