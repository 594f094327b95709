import Verif.Proofs.Prob
import Verif.Proofs.RankSpan

/-!
# Tensor trains whose partial products keep the ranks of the unfoldings
-/

namespace TTS

open Finset

theorem rank_le_of_ker {l m n : Type*} [Fintype l] [Fintype m] [Fintype n] (B : Matrix l n ℝ) (A : Matrix m n ℝ)
    (h : ∀ y, A.mulVec y = 0 → B.mulVec y = 0) : B.rank ≤ A.rank := by
  have hle : LinearMap.ker A.mulVecLin ≤ LinearMap.ker B.mulVecLin := by
    intro z hz
    rw [LinearMap.mem_ker, Matrix.mulVecLin_apply] at hz ⊢
    exact h z hz
  have h1 := LinearMap.finrank_range_add_finrank_ker B.mulVecLin
  have h2 := LinearMap.finrank_range_add_finrank_ker A.mulVecLin
  have h3 := Submodule.finrank_mono hle
  unfold Matrix.rank
  omega

/-- a vector indexed by multi-indices -/
def vecOf {s : List ℕ} (y : Fin s.prod → ℝ) : List ℕ → ℝ := fun q =>
  if h : ravel s q < s.prod then y ⟨_, h⟩ else 0

theorem vecOf_unravel {s : List ℕ} (y : Fin s.prod → ℝ) (j : Fin s.prod) : vecOf y (unravel s j) = y j := by
  unfold vecOf
  have := ravel_unravel j.2
  simp [this]

/-- the unfolding applied to a vector -/
theorem unfolding_mulVec (A : ND ℝ) (k : ℕ) (y : Fin (A.shape.drop k).prod → ℝ) (i : Fin (A.shape.take k).prod) :
    (A.unfolding k).mulVec y i
      = sumIdx (A.shape.drop k) fun q => A.get (unravel (A.shape.take k) i ++ q) * vecOf y q := by
  rw [sumIdx_fin, Matrix.mulVec, dotProduct]
  exact sum_congr rfl fun j _ => by rw [vecOf_unravel]; rfl

/-- contracting the first `m` modes with `L` loses nothing -/
def KeepsKernel (A : ND ℝ) (m r : ℕ) (L : List ℕ → ℕ → ℝ) : Prop :=
  ∀ y : List ℕ → ℝ,
    (∀ a < r, sumIdx (A.shape.take m) (fun p => L p a * sumIdx (A.shape.drop m) fun q => A.get (p ++ q) * y q) = 0) →
    ∀ p, InR (A.shape.take m) p → sumIdx (A.shape.drop m) (fun q => A.get (p ++ q) * y q) = 0

/-- the `r × N` matrix of the contraction of the first `m` modes with `L` -/
def contracted (A : ND ℝ) (m r : ℕ) (L : List ℕ → ℕ → ℝ) : Matrix (Fin r) (Fin (A.shape.drop m).prod) ℝ :=
  Matrix.of (fun (a : Fin r) (i : Fin (A.shape.take m).prod) => L (unravel (A.shape.take m) i) a) * A.unfolding m

theorem contracted_mulVec (A : ND ℝ) (m r : ℕ) (L : List ℕ → ℕ → ℝ) (y : Fin (A.shape.drop m).prod → ℝ) (a : Fin r) :
    (contracted A m r L).mulVec y a
      = sumIdx (A.shape.take m) fun p => L p a * sumIdx (A.shape.drop m) fun q => A.get (p ++ q) * vecOf y q := by
  unfold contracted
  rw [← Matrix.mulVec_mulVec, Matrix.mulVec, dotProduct, sumIdx_fin]
  exact sum_congr rfl fun i _ => by rw [unfolding_mulVec]; rfl

theorem KeepsKernel.rank {A : ND ℝ} {m r : ℕ} {L : List ℕ → ℕ → ℝ} (h : KeepsKernel A m r L) :
    (A.unfolding m).rank ≤ (contracted A m r L).rank := by
  refine rank_le_of_ker _ _ fun y hy => ?_
  funext i
  rw [unfolding_mulVec]
  refine h (vecOf y) (fun a ha => ?_) _ (unravel_inR i.2)
  rw [← contracted_mulVec A m r L y ⟨a, ha⟩, hy]; rfl

theorem keepsKernel_zero (A : ND ℝ) : KeepsKernel A 0 1 fun _ _ => 1 := by
  intro y h p hp
  have := h 0 (by norm_num)
  have hp' : p = [] := by
    rw [List.take_zero] at hp
    exact List.length_eq_zero_iff.1 hp.length
  subst hp'
  simpa using this

theorem sumIdx_take_succ' {sh : List ℕ} {m : ℕ} (hm : m < sh.length) (g : List ℕ → ℝ) :
    sumIdx (sh.take (m + 1)) g = sumIdx (sh.take m) fun p => ∑ i ∈ range (sh.getD m 0), g (p ++ [i]) := by
  rw [take_succ_getD hm 0, sumIdx_append]
  simp

theorem sumIdx_drop' {sh : List ℕ} {m : ℕ} (hm : m < sh.length) (g : List ℕ → ℝ) :
    sumIdx (sh.drop m) g = ∑ i ∈ range (sh.getD m 0), sumIdx (sh.drop (m + 1)) fun q => g (i :: q) := by
  rw [drop_eq_getD_cons hm 0, sumIdx_cons]

theorem getD_snoc {p : List ℕ} {m : ℕ} (h : p.length = m) (i : ℕ) : (p ++ [i]).getD m 0 = i := by
  subst h; simp

/-- the contraction of the first `m` modes with `L`, mode `m` joined to the rows -/
def openMat (A : ND ℝ) (m r : ℕ) (L : List ℕ → ℕ → ℝ) :
    Matrix (Fin r × Fin (A.shape.getD m 0)) (Fin (A.shape.drop (m + 1)).prod) ℝ := fun ai j =>
  sumIdx (A.shape.take m) fun p => L p ai.1 * A.get (p ++ (ai.2 : ℕ) :: unravel (A.shape.drop (m + 1)) j)

theorem openMat_mulVec (A : ND ℝ) (m r : ℕ) (L : List ℕ → ℕ → ℝ) (y : Fin (A.shape.drop (m + 1)).prod → ℝ)
    (ai : Fin r × Fin (A.shape.getD m 0)) : (openMat A m r L).mulVec y ai = sumIdx (A.shape.take m) fun p => L p ai.1 *
      sumIdx (A.shape.drop (m + 1)) fun q => A.get (p ++ (ai.2 : ℕ) :: q) * vecOf y q := by
  rw [Matrix.mulVec, dotProduct]
  simp only [openMat]
  have e : ∀ j : Fin (A.shape.drop (m + 1)).prod,
      (sumIdx (A.shape.take m) fun p => L p ai.1 * A.get (p ++ (ai.2 : ℕ) :: unravel (A.shape.drop (m + 1)) j)) * y j
      = sumIdx (A.shape.take m) fun p => L p ai.1 * (A.get (p ++ (ai.2 : ℕ) :: unravel (A.shape.drop (m + 1)) j) * y j) := by
    intro j
    rw [sumIdx_mul]
    exact sumIdx_congr fun p _ => by ring
  rw [sum_congr rfl fun j _ => e j, ← sumIdx_sum]
  refine sumIdx_congr fun p _ => ?_
  rw [← mul_sum, sumIdx_fin]
  congr 1
  exact sum_congr rfl fun j _ => by rw [vecOf_unravel]

theorem openMat_rank (A : ND ℝ) (m r : ℕ) (L : List ℕ → ℕ → ℝ) (hm : m < A.shape.length) :
    (openMat A m r L).rank ≤ (A.unfolding (m + 1)).rank := by
  refine rank_le_of_ker _ _ fun y hy => ?_
  funext ai
  rw [openMat_mulVec]
  refine sumIdx_eq_zero fun p hp => ?_
  have hin : InR (A.shape.take (m + 1)) (p ++ [(ai.2 : ℕ)]) := inR_take_snoc hm hp ai.2.2
  have := congrFun hy ⟨_, ravel_lt hin⟩
  rw [unfolding_mulVec, unravel_ravel hin] at this
  simp only [List.append_assoc, List.singleton_append] at this
  rw [this]; simp

theorem inR_take_succ {sh P : List ℕ} {m : ℕ} (hm : m < sh.length) (hP : InR (sh.take (m + 1)) P) :
    ∃ p i, InR (sh.take m) p ∧ i < sh.getD m 0 ∧ P = p ++ [i] := by
  rw [take_succ_getD hm 0] at hP
  have hlen := hP.length
  rw [List.length_append, List.length_take, List.length_singleton] at hlen
  have hl : P.take m ++ P.drop m = P := List.take_append_drop _ _
  have h1 := hP.take m
  have h2 := hP.drop m
  have hlt : (sh.take m).length = m := by rw [List.length_take]; omega
  rw [List.take_append_of_le_length (by omega), List.take_take, min_self] at h1
  rw [List.drop_append_of_le_length (by omega), List.drop_take, Nat.sub_self, List.take_zero, List.nil_append] at h2
  obtain ⟨i, hi⟩ : ∃ i, P.drop m = [i] := by
    rw [← List.length_eq_one_iff, List.length_drop]; omega
  rw [hi] at h2
  refine ⟨P.take m, i, h1, h2.1, ?_⟩
  rw [← hi, hl]

theorem KeepsKernel.openMat_ker {A : ND ℝ} {m r : ℕ} {L : List ℕ → ℕ → ℝ} (h : KeepsKernel A m r L)
    (hm : m < A.shape.length) (y : List ℕ → ℝ)
    (key : (openMat A m r L).mulVec (fun j => y (unravel (A.shape.drop (m + 1)) j)) = 0) (P : List ℕ)
    (hP : InR (A.shape.take (m + 1)) P) : sumIdx (A.shape.drop (m + 1)) (fun q => A.get (P ++ q) * y q) = 0 := by
  have hvec : ∀ q, InR (A.shape.drop (m + 1)) q →
      vecOf (s := A.shape.drop (m + 1)) (fun j => y (unravel (A.shape.drop (m + 1)) j)) q = y q := by
    intro q hq
    unfold vecOf
    rw [dif_pos (ravel_lt hq)]
    simp only [unravel_ravel hq]
  obtain ⟨p, i, hp, hi, rfl⟩ := inR_take_succ hm hP
  have := h (fun q => if q.head? = some i then y q.tail else 0) (fun a ha => ?_) p hp
  · rw [sumIdx_drop' hm, Finset.sum_eq_single i] at this
    · simpa [List.append_assoc] using this
    · intro b _ hb
      refine sumIdx_eq_zero fun q _ => ?_
      simp [hb]
    · intro hi'; exact absurd (mem_range.2 hi) hi'
  · have := congrFun key (⟨a, ha⟩, ⟨i, hi⟩)
    rw [openMat_mulVec] at this
    rw [Pi.zero_apply] at this
    refine Eq.trans ?_ this
    refine sumIdx_congr fun p hp => ?_
    congr 1
    rw [sumIdx_drop' hm, Finset.sum_eq_single i]
    · refine sumIdx_congr fun q hq => ?_
      simp [hvec q hq]
    · intro b _ hb
      refine sumIdx_eq_zero fun q _ => ?_
      simp [hb]
    · intro hi'; exact absurd (mem_range.2 hi) hi'

theorem KeepsKernel.rank_succ {A : ND ℝ} {m r : ℕ} {L : List ℕ → ℕ → ℝ} (h : KeepsKernel A m r L)
    (hm : m < A.shape.length) : (A.unfolding (m + 1)).rank ≤ r * A.shape.getD m 0 := by
  refine (rank_le_of_ker (A.unfolding (m + 1)) (openMat A m r L) fun y hy => ?_).trans ?_
  · funext i
    rw [unfolding_mulVec]
    refine h.openMat_ker hm (vecOf y) ?_ _ (unravel_inR i.2)
    have : (fun j : Fin (A.shape.drop (m + 1)).prod => vecOf y (unravel (A.shape.drop (m + 1)) j)) = y := by
      funext j; exact vecOf_unravel y j
    rw [this, hy]
  · refine (Matrix.rank_le_card_height _).trans (le_of_eq ?_)
    simp

/-- compression without loss -/
theorem exists_keepsKernel (A : ND ℝ) (m r : ℕ) (hr : (A.unfolding m).rank ≤ r) : ∃ L, KeepsKernel A m r L := by
  obtain ⟨C, hC⟩ := exists_compress (A.unfolding m) hr
  refine ⟨fun p a => if h : a < r ∧ ravel (A.shape.take m) p < (A.shape.take m).prod then C ⟨a, h.1⟩ ⟨_, h.2⟩ else 0,
    fun y hy p hp => ?_⟩
  have hv : ∀ p, sumIdx (A.shape.drop m) (fun q => A.get (p ++ q) * y q) = sumIdx (A.shape.drop m) fun q =>
      A.get (p ++ q) * vecOf (s := A.shape.drop m) (fun j => y (unravel (A.shape.drop m) j)) q := by
    intro p
    refine sumIdx_congr fun q hq => ?_
    unfold vecOf
    rw [dif_pos (ravel_lt hq)]
    simp only [unravel_ravel hq]
  have := congrFun (hC (fun j => y (unravel (A.shape.drop m) j)) ?_) ⟨_, ravel_lt hp⟩
  · rw [unfolding_mulVec, unravel_ravel hp] at this
    rw [hv]; exact this
  · funext a
    rw [← Matrix.mulVec_mulVec, Matrix.mulVec, dotProduct]
    refine Eq.trans ?_ (hy a a.2)
    rw [sumIdx_fin]
    refine sum_congr rfl fun i _ => ?_
    rw [unfolding_mulVec, hv]
    congr 1
    have h1 := ravel_unravel i.2
    have h2 : (a : ℕ) < r ∧ ravel (A.shape.take m) (unravel (A.shape.take m) i) < (A.shape.take m).prod :=
      ⟨a.2, by rw [h1]; exact i.2⟩
    show C a i = if h : _ then _ else _
    rw [dif_pos h2]
    congr 1
    ext; exact h1.symm

/-- The rank of an unfolding grows at most by the mode size. -/
theorem unfolding_rank_succ (A : ND ℝ) (m : ℕ) (hm : m < A.shape.length) :
    (A.unfolding (m + 1)).rank ≤ (A.unfolding m).rank * A.shape.getD m 0 := by
  obtain ⟨L, hL⟩ := exists_keepsKernel A m _ le_rfl
  exact hL.rank_succ hm

/-- One more core. -/
theorem KeepsKernel.succ {A : ND ℝ} {m r r' : ℕ} {L : List ℕ → ℕ → ℝ} (h : KeepsKernel A m r L) (hm : m < A.shape.length)
    (hr : (A.unfolding (m + 1)).rank ≤ r') :
    ∃ c : ℕ → ℕ → ℕ → ℝ, KeepsKernel A (m + 1) r' fun p a' =>
      ∑ a ∈ range r, L (p.take m) a * c a (p.getD m 0) a' := by
  set n := A.shape.getD m 0 with hn
  set G := openMat A m r L with hG
  have hGv : ∀ y (ai : Fin r × Fin n), G.mulVec y ai = sumIdx (A.shape.take m) fun p => L p ai.1 *
      sumIdx (A.shape.drop (m + 1)) fun q => A.get (p ++ (ai.2 : ℕ) :: q) * vecOf y q := openMat_mulVec A m r L
  have hrG : G.rank ≤ r' := (openMat_rank A m r L hm).trans hr
  obtain ⟨C, hC⟩ := exists_compress G hrG
  refine ⟨fun a i a' => if hh : a < r ∧ i < n ∧ a' < r' then C ⟨a', hh.2.2⟩ (⟨a, hh.1⟩, ⟨i, hh.2.1⟩) else 0,
    fun y hy => ?_⟩
  set y' : Fin (A.shape.drop (m + 1)).prod → ℝ := fun j => y (unravel (A.shape.drop (m + 1)) j) with hy'
  have hvec : ∀ q, InR (A.shape.drop (m + 1)) q → vecOf y' q = y q := by
    intro q hq
    unfold vecOf
    rw [dif_pos (ravel_lt hq)]
    simp only [hy', unravel_ravel hq]
  have key : G.mulVec y' = 0 := by
    refine hC y' ?_
    funext a'
    have := hy a' a'.2
    rw [sumIdx_take_succ' hm] at this
    rw [← Matrix.mulVec_mulVec, Matrix.mulVec, dotProduct, Fintype.sum_prod_type]
    rw [Pi.zero_apply, ← this]
    have e1 : ∀ p, InR (A.shape.take m) p → (∑ i ∈ range (A.shape.getD m 0),
        (∑ a ∈ range r, L ((p ++ [i]).take m) a *
          (if hh : a < r ∧ (p ++ [i]).getD m 0 < n ∧ (a' : ℕ) < r' then C ⟨a', hh.2.2⟩ (⟨a, hh.1⟩, ⟨_, hh.2.1⟩) else 0)) *
          sumIdx (A.shape.drop (m + 1)) fun q => A.get (p ++ [i] ++ q) * y q)
        = ∑ i : Fin n, ∑ a : Fin r, C a' (a, i) * (L p a *
          sumIdx (A.shape.drop (m + 1)) fun q => A.get (p ++ (i : ℕ) :: q) * vecOf y' q) := by
      intro p hp
      have hl : p.length = m := by rw [hp.length, List.length_take]; omega
      rw [Finset.sum_range]
      refine sum_congr rfl fun i _ => ?_
      rw [Finset.sum_range, sum_mul]
      refine sum_congr rfl fun a _ => ?_
      have t1 : (p ++ [(i : ℕ)]).take m = p := List.take_left' hl
      have t2 : (p ++ [(i : ℕ)]).getD m 0 = i := getD_snoc hl _
      rw [t1]
      have t3 : (if hh : (a : ℕ) < r ∧ (p ++ [(i : ℕ)]).getD m 0 < n ∧ (a' : ℕ) < r'
          then C ⟨a', hh.2.2⟩ (⟨a, hh.1⟩, ⟨_, hh.2.1⟩) else 0) = C a' (a, i) := by
        rw [dif_pos ⟨a.2, by rw [t2]; exact i.2, a'.2⟩]
        congr 2
        ext; exact t2
      rw [t3]
      have t4 : (sumIdx (A.shape.drop (m + 1)) fun q => A.get (p ++ [(i : ℕ)] ++ q) * y q)
          = sumIdx (A.shape.drop (m + 1)) fun q => A.get (p ++ (i : ℕ) :: q) * vecOf y' q := by
        refine sumIdx_congr fun q hq => ?_
        rw [hvec q hq, List.append_assoc, List.singleton_append]
      rw [t4]; ring
    rw [sumIdx_congr e1, sumIdx_sum, sum_comm]
    refine sum_congr rfl fun i _ => ?_
    rw [sumIdx_sum]
    refine sum_congr rfl fun a _ => ?_
    rw [hGv, mul_sumIdx]
  exact h.openMat_ker hm y key

/-- product of core slices; `rk` are the bond dimensions -/
def prodTo (rk : ℕ → ℕ) (c : ℕ → ℕ → ℕ → ℕ → ℝ) : ℕ → List ℕ → ℕ → ℝ
  | 0, _, _ => 1
  | m + 1, p, b => ∑ a ∈ range (rk m), prodTo rk c m (p.take m) a * c m a (p.getD m 0) b

theorem prodTo_congr {rk : ℕ → ℕ} {c c' : ℕ → ℕ → ℕ → ℕ → ℝ} {m : ℕ} (h : ∀ k < m, c k = c' k) (p : List ℕ) (a : ℕ) :
    prodTo rk c m p a = prodTo rk c' m p a := by
  induction m generalizing p a with
  | zero => rfl
  | succ m ih =>
    simp only [prodTo]
    rw [h m (by omega)]
    exact sum_congr rfl fun b _ => by rw [ih (fun k hk => h k (by omega))]

/-- There are cores, of any bond dimensions that are at least the ranks of the unfoldings, whose partial products lose
nothing. -/
theorem exists_good_cores (A : ND ℝ) (rk : ℕ → ℕ) (h0 : rk 0 = 1) (m : ℕ) (hm : m ≤ A.shape.length)
    (hr : ∀ k, 1 ≤ k → k ≤ m → (A.unfolding k).rank ≤ rk k) : ∃ c, KeepsKernel A m (rk m) (prodTo rk c m) := by
  induction m with
  | zero =>
    refine ⟨fun _ _ _ _ => 0, ?_⟩
    rw [h0]; exact keepsKernel_zero A
  | succ m ih =>
    obtain ⟨c, hc⟩ := ih (by omega) fun k h1 h2 => hr k h1 (by omega)
    obtain ⟨cm, hcm⟩ := hc.succ (by omega) (hr (m + 1) (by omega) le_rfl)
    refine ⟨Function.update c m cm, ?_⟩
    have e : prodTo rk (Function.update c m cm) (m + 1)
        = fun p a' => ∑ a ∈ range (rk m), prodTo rk c m (p.take m) a * cm a (p.getD m 0) a' := by
      funext p a'
      simp only [prodTo, Function.update_self]
      refine sum_congr rfl fun a _ => ?_
      rw [prodTo_congr (c' := c) fun k hk => Function.update_of_ne (by omega) _ _]
    rw [e]; exact hcm

end TTS
