import Verif.Proofs.TTSvd
import Verif.Props.Round

/-!
# C49: TT-SVD
-/

namespace TTS.Props

open Finset TTS.Spec

/-- The first step is one of the loop, with a first index of size one. -/
theorem ttSvdTrace_loop (la : LinAlg) (A : ND ℝ) (hd : 2 ≤ A.shape.length) (hpos : ∀ n ∈ A.shape, 0 < n)
    (rank : Option RankArg) (ranks : List ℕ)
    (hr : processTTRank (rank.getD (.seq (List.replicate (A.shape.length - 1) A.shape.prod))) A.shape true = .ok ranks)
    (hl : ranks.length + 1 = A.shape.length) :
    ttSvdTrace la A rank = (ttSvdLoop la (A.reshape (1 :: A.shape)) 1 A.shape ranks).map fun o => (⟨o.1⟩, o.2) := by
  unfold ttSvdTrace
  rw [hr]
  dsimp only
  match hsh : A.shape, ranks, hd, hl with
  | n :: m :: shape, k :: ranks, _, _ =>
    rw [ttSvdLoop]
    have hB : (A.reshape (1 :: n :: m :: shape)).matricize [0, 1] true = A.matricize [0] false := by
      have h1 := matricize_range_true (A.reshape (1 :: n :: m :: shape)) 2 (by simp)
      have h2 := matricize_range_false A 1 (by rw [hsh]; simp)
      rw [show [0, 1] = List.range 2 from rfl, show [0] = List.range 1 from rfl, h1, h2, hsh]
      have e1 : (List.take 2 (A.reshape (1 :: n :: m :: shape)).shape).prod = n := by
        show (List.take 2 (1 :: n :: m :: shape)).prod = n; simp
      have e2 : (List.drop 2 (A.reshape (1 :: n :: m :: shape)).shape).prod = (m :: shape).prod := rfl
      have e3 : List.take 1 (n :: m :: shape) ++ [(List.drop 1 (n :: m :: shape)).prod] = [n, (m :: shape).prod] := rfl
      rw [e1, e2, e3]
      refine ND.ext' rfl fun i hi => ?_
      match i, hi with
      | [x, y], hi =>
        have hi' : InR [n, (m :: shape).prod] [x, y] := hi
        have hx : x < n := hi'.1
        have hy : y < (m :: shape).prod := hi'.2.1
        have f1 := ND.reshape_mat_unravel (A := A) (s := [n]) (t := m :: shape) hsh (x := x) (y := y) (by simpa using hx) hy
        have f2 := ND.reshape_mat_unravel (A := A.reshape (1 :: n :: m :: shape)) (s := [1, n]) (t := m :: shape) rfl
          (x := x) (y := y) (by simpa using hx) hy
        rw [show ([n] : List ℕ).prod = n by simp] at f1
        rw [show ([1, n] : List ℕ).prod = n by simp] at f2
        rw [f1, f2]
        have u1 : unravel [1, n] x = 0 :: unravel [n] x := by
          have : x / n = 0 := Nat.div_eq_of_lt hx
          simp [unravel, this, Nat.mod_eq_of_lt hx]
        rw [u1, List.cons_append, ← hsh, ND.reshape_add_one rfl]
    rw [hB]
    dsimp only
    cases ((la.svdThin (A.matricize [0] false)).1.cols 0 (max (min ((la.svdThin (A.matricize [0] false)).1.dim 1) k) 1)).reshape?
      [1, n, max (min ((la.svdThin (A.matricize [0] false)).1.dim 1) k) 1] with
    | error e => rfl
    | ok core =>
      dsimp only
      cases ((ND.diag (((la.svdThin (A.matricize [0] false)).2.1).take
          (max (min ((la.svdThin (A.matricize [0] false)).1.dim 1) k) 1))).matmul
          ((la.svdThin (A.matricize [0] false)).2.2.rows 0
            (max (min ((la.svdThin (A.matricize [0] false)).1.dim 1) k) 1))).reshape?
          (max (min ((la.svdThin (A.matricize [0] false)).1.dim 1) k) 1 :: m :: shape) with
      | error e => rfl
      | ok A' =>
        dsimp only
        cases ttSvdLoop la A' (max (min ((la.svdThin (A.matricize [0] false)).1.dim 1) k) 1) (m :: shape) ranks <;> rfl

/-- The ranks `tt_svd` asks for: the given ones, or the number of entries on every bond. -/
def svdRanks (shape : List ℕ) (rank : Option RankArg) : List ℕ :=
  match rank with
  | some a => askedRanks shape a
  | none => List.replicate (shape.length - 1) shape.prod

theorem distL_one (A : ND ℝ) {sh : List ℕ} (hA : A.shape = sh) (G : List ℕ → ℝ) :
    distL 1 sh (entL (A.reshape (1 :: sh))) (fun _ p => G p) = sumIdx sh fun p => (A.get p - G p) ^ 2 := by
  unfold distL entL
  rw [sum_range_one]
  exact sumIdx_congr fun p _ => by rw [ND.reshape_add_one hA]

theorem tt_svd_core {la : LinAlg} (hs : la.SVDThinOk) (A : ND ℝ) (hd : 2 ≤ A.shape.length)
    (hpos : ∀ n ∈ A.shape, 0 < n) (rank : Option RankArg) (hl : (svdRanks A.shape rank).length + 1 = A.shape.length) :
    ∃ Y disc, ttSvdTrace la A rank = .ok (Y, disc) ∧ Y.Valid ∧ Y.shape = A.shape ∧
      (∀ C ∈ Y.cores.dropLast, C.LeftOrthogonal) ∧
      (∀ k < A.shape.length - 1, 1 ≤ Y.rank.getD k 0 ∧
        Y.rank.getD k 0 ≤ max 1 ((trimRanks A.shape (svdRanks A.shape rank)).getD k 0)) ∧
      disc.length = A.shape.length - 1 ∧
      distSq A Y.toNumpy = (disc.map sumSq).sum ∧
      ∀ G : List ℕ → ℝ, (∀ mu < A.shape.length - 1,
          SplitsL 1 A.shape (fun _ p => G p) mu ((trimRanks A.shape (svdRanks A.shape rank)).getD mu 0)) →
        distSq A Y.toNumpy ≤ (A.shape.length - 1 : ℕ) * sumIdx A.shape fun p => (A.get p - G p) ^ 2 := by
  have htl := trimRanks_length A.shape _ hl
  have hr : processTTRank (rank.getD (.seq (List.replicate (A.shape.length - 1) A.shape.prod))) A.shape true
      = .ok (trimRanks A.shape (svdRanks A.shape rank)) := by
    rw [process_asked]
    have : askedRanks A.shape (rank.getD (.seq (List.replicate (A.shape.length - 1) A.shape.prod)))
        = svdRanks A.shape rank := by cases rank <;> rfl
    rw [this, if_pos hl]
  obtain ⟨cs, disc, c1, c2, c3, c4, c5, c6, c7, c8⟩ := ttSvdLoop_spec hs A.shape (A.reshape (1 :: A.shape)) 1
    (trimRanks A.shape (svdRanks A.shape rank)) rfl one_pos hpos (by omega)
  have hne : cs ≠ [] := by intro h; rw [h] at c3; rw [← c3] at hd; simp [coreShape] at hd
  have hv : (TT.mk cs).Valid := ⟨hne, c2⟩
  have hrk := bonds_rank hv
  have hrl := rank_length hv
  have hsh : (TT.mk cs).shape = A.shape := c3
  rw [hsh] at hrl
  have herr : distSq A (TT.mk cs).toNumpy = (disc.map sumSq).sum := by
    rw [← c7]
    unfold distL entL distSq
    rw [sum_range_one]
    exact sumIdx_congr fun p _ => by rw [ND.reshape_add_one rfl, TT.toNumpy_get hv]; rfl
  refine ⟨⟨cs⟩, disc, ?_, hv, hsh, c4, ?_, by rw [c5, htl]; omega, herr, ?_⟩
  · rw [ttSvdTrace_loop la A hd hpos rank _ hr (by omega), c1]; rfl
  · intro k hk
    have e : (TT.mk cs).rank.getD k 0 = bnd cs 1 (k + 1) := by
      have : bnd cs 1 (k + 1) = (bonds (TT.mk cs).rank).getD (k + 1) 0 := by rw [hrk]; rfl
      rw [this]
      unfold bonds
      rw [List.getD_cons_succ, List.getD_append _ _ _ _ (by omega)]
    rw [e]
    exact c6 k (by omega)
  · intro G hG
    rw [herr]
    have := c8 (fun _ p => G p) (fun mu hmu => hG mu (by omega))
    rw [distL_one A rfl, htl] at this
    rw [show A.shape.length - 1 = (svdRanks A.shape rank).length by omega]
    exact this

/-- **C49.** For every nonempty tensor with at least two modes, given in any format with dense form `A`, and every
acceptable `rank`, `tt_svd` returns a tensor train of the same shape whose cores but the last are left-orthogonal and
whose ranks are between one and `max(1, ·)` of the trimmed requested ones.  The squared error is the sum of the squares
of the singular values left out, and at most `d-1` times the squared distance to any tensor train with the requested
ranks. -/
theorem C49 {la : LinAlg} (hs : la.SVDThinOk) (A : ND ℝ) (hd : 2 ≤ A.shape.length)
    (hpos : ∀ n ∈ A.shape, 0 < n) (rank : Option RankArg) (hl : (svdRanks A.shape rank).length + 1 = A.shape.length) :
    ∃ Y disc, ttSvdTrace la A rank = .ok (Y, disc) ∧ ttSvd la A rank = .ok Y ∧ Y.Valid ∧ Y.shape = A.shape ∧
      (∀ C ∈ Y.cores.dropLast, C.LeftOrthogonal) ∧
      (∀ k < A.shape.length - 1, 1 ≤ Y.rank.getD k 0 ∧
        Y.rank.getD k 0 ≤ max 1 ((trimRanks A.shape (svdRanks A.shape rank)).getD k 0)) ∧
      disc.length = A.shape.length - 1 ∧
      distSq A Y.toNumpy = (disc.map fun S => (S.map fun σ => σ ^ 2).sum).sum ∧
      ∀ Z : TT ℝ, Z.Valid → Z.shape = A.shape → RanksLe Z.rank (svdRanks A.shape rank) →
        distSq A Y.toNumpy ≤ (A.shape.length - 1 : ℕ) * distSq A Z.toNumpy := by
  obtain ⟨Y, disc, y1, y2, y3, y4, y5, y6, y7, y8⟩ := tt_svd_core hs A hd hpos rank hl
  refine ⟨Y, disc, y1, by unfold ttSvd; rw [y1]; rfl, y2, y3, y4, y5, y6, y7, ?_⟩
  intro Z hZ hZs hZr
  obtain ⟨Z', z1, z2, z3, z4⟩ := C04 Z hZ _ hZr
  have htl := trimRanks_length A.shape _ hl
  have := y8 (fun p => Z'.toNumpy.get p) (by
    intro mu hmu
    obtain ⟨f, g, hfg⟩ := splits_tt z1 (mu := mu) (by rw [z3, hZs, htl]; omega)
    rw [z3, z2, hZs] at hfg
    refine ⟨fun _ p a => f p a, fun q a => g q 0 a, fun x _ p q hp hpq => ?_⟩
    have := hfg p q 0 hp hpq one_pos
    simpa using this)
  rw [z4] at this
  exact this

theorem eq_of_distSq {A B : ND ℝ} (hs : B.shape = A.shape) (h : distSq A B = 0) : B = A := by
  unfold distSq at h
  rw [sumIdx_eq_sum, sum_eq_zero_iff_of_nonneg (fun _ _ => sq_nonneg _)] at h
  refine ND.ext' hs fun i hi => ?_
  have := h i (mem_idxSet.2 (by rwa [hs] at hi))
  have := pow_eq_zero_iff (two_ne_zero) |>.1 this
  linarith

/-- **C49, exactness for representable tensors.** -/
theorem C49_exact {la : LinAlg} (hs : la.SVDThinOk) (A : ND ℝ) (hd : 2 ≤ A.shape.length)
    (hpos : ∀ n ∈ A.shape, 0 < n) (a : RankArg) (hl : (askedRanks A.shape a).length + 1 = A.shape.length)
    {Z : TT ℝ} (hZ : Z.Valid) (hZs : Z.shape = A.shape) (hZr : RanksLe Z.rank (askedRanks A.shape a))
    (hZA : Z.toNumpy = A) :
    ∃ Y, ttSvd la A (some a) = .ok Y ∧ Y.toNumpy = A := by
  obtain ⟨Y, disc, -, y1, y2, y3, -, -, -, -, y8⟩ := C49 hs A hd hpos (some a) hl
  refine ⟨Y, y1, eq_of_distSq (by rw [TT.toNumpy_shape y2, y3]) ?_⟩
  have h := y8 Z hZ hZs hZr
  have h0 : distSq A A = 0 := by unfold distSq; exact sumIdx_eq_zero fun _ _ => by simp
  rw [hZA, h0, mul_zero] at h
  exact le_antisymm h (distSq_nonneg _ _)

/-- **C49, no rank.** Without a rank, `tt_svd` is exact. -/
theorem C49_none {la : LinAlg} (hs : la.SVDThinOk) (A : ND ℝ) (hd : 2 ≤ A.shape.length)
    (hpos : ∀ n ∈ A.shape, 0 < n) : ∃ Y, ttSvd la A none = .ok Y ∧ Y.toNumpy = A := by
  have hl : (svdRanks A.shape none).length + 1 = A.shape.length := by simp [svdRanks]; omega
  obtain ⟨Y, disc, y1, y2, y3, y4, y5, y6, y7, y8⟩ := tt_svd_core hs A hd hpos none hl
  refine ⟨Y, by unfold ttSvd; rw [y1]; rfl, eq_of_distSq (by rw [TT.toNumpy_shape y2, y3]) ?_⟩
  -- the sizes of the unfoldings are a consistent tuple of ranks
  obtain ⟨cs, hcs⟩ : ∃ cs : List ℕ, cs = (List.range (A.shape.length - 1)).map fun i =>
    min (A.shape.take (i + 1)).prod (A.shape.drop (i + 1)).prod := ⟨_, rfl⟩
  have hcl : cs.length = A.shape.length - 1 := by rw [hcs]; simp
  have hcg : ∀ i < A.shape.length - 1, cs.getD i 0 = min (A.shape.take (i + 1)).prod (A.shape.drop (i + 1)).prod := by
    intro i hi
    rw [List.getD_eq_getElem _ _ (by omega)]
    simp [hcs]
  have hb : ∀ i ≤ A.shape.length, (bonds cs).getD i 0 = min (A.shape.take i).prod (A.shape.drop i).prod := by
    intro i hi
    have hall : 0 < A.shape.prod := prod_pos_of hpos
    match i with
    | 0 => simp [bonds]; omega
    | i + 1 =>
      unfold bonds
      rw [List.getD_cons_succ]
      by_cases h : i < cs.length
      · rw [List.getD_append _ _ _ _ h, hcg i (by omega)]
      · have hi' : i = cs.length := by omega
        rw [List.getD_append_right _ _ _ _ (by omega), hi', Nat.sub_self, List.getD_cons_zero,
          List.take_of_length_le (by omega), List.drop_of_length_le (by omega)]
        simp; omega
  have hcons : ConsistentRanks A.shape cs := by
    refine ⟨by omega, fun i hi => ?_⟩
    rw [hb i (by omega), hb (i + 1) (by omega)]
    have e1 : (A.shape.take (i + 1)).prod = (A.shape.take i).prod * A.shape.getD i 0 := by
      rw [take_succ_getD hi 0, List.prod_append]; simp
    have e2 : (A.shape.drop i).prod = A.shape.getD i 0 * (A.shape.drop (i + 1)).prod := by
      rw [List.drop_eq_getElem_cons hi, List.prod_cons, List.getD_eq_getElem _ _ hi]
    have hn : 1 ≤ A.shape.getD i 0 := by
      rw [List.getD_eq_getElem _ _ hi]; exact hpos _ (List.getElem_mem hi)
    rw [e1, e2]
    generalize (A.shape.take i).prod = L
    generalize (A.shape.drop (i + 1)).prod = R
    generalize A.shape.getD i 0 = n at hn
    constructor
    · rcases le_total L (n * R) with h | h
      · rw [min_eq_left h]; exact min_le_left _ _
      · rw [min_eq_right h]
        refine (min_le_right _ _).trans ?_
        calc R = 1 * R * 1 := by ring
          _ ≤ n * R * n := Nat.mul_le_mul (Nat.mul_le_mul_right _ hn) hn
    · rcases le_total (L * n) R with h | h
      · rw [min_eq_left h]
        refine (min_le_left _ _).trans ?_
        calc L = 1 * (L * 1) := by ring
          _ ≤ n * (L * n) := Nat.mul_le_mul hn (Nat.mul_le_mul_left _ hn)
      · rw [min_eq_right h]; exact min_le_right _ _
  have hle : RanksLe cs (svdRanks A.shape none) := by
    refine ⟨by omega, fun i hi => ?_⟩
    rw [hcg i (by omega)]
    have : (svdRanks A.shape none).getD i 0 = A.shape.prod := by
      unfold svdRanks
      rw [List.getD_eq_getElem _ _ (by simp; omega)]; simp
    rw [this]
    refine (min_le_left _ _).trans ?_
    rw [← List.prod_take_mul_prod_drop A.shape (i + 1)]
    exact Nat.le_mul_of_pos_right _ (prod_pos_of fun n hn => hpos n (List.mem_of_mem_drop hn))
  have hg := C03_greatest A.shape _ cs hl hcons hle
  have h := y8 (fun p => A.get p) (by
    intro mu hmu
    obtain ⟨Q, R, q1, q2, q3⟩ := factor_min (A.reshape [(A.shape.take (mu + 1)).prod, (A.shape.drop (mu + 1)).prod]) rfl
    have hle := hg.2 mu (by omega)
    rw [hcg mu (by omega)] at hle
    generalize (trimRanks A.shape (svdRanks A.shape none)).getD mu 0 = w at hle ⊢
    refine ⟨fun _ p a => Q.get [ravel (A.shape.take (mu + 1)) p, a], fun q a => R.get [a, ravel (A.shape.drop (mu + 1)) q], ?_⟩
    intro x _ p q hp hpq
    have hpq' := hpq
    rw [← List.take_append_drop (mu + 1) A.shape, inR_append (by rw [hp, List.length_take]; omega)] at hpq'
    obtain ⟨hp', hq'⟩ := hpq'
    beta_reduce
    rw [← ND.reshape_mat (A := A) (by rw [List.take_append_drop]) hp' hq', ← q3 _ (ravel_lt hp') _ (ravel_lt hq'),
      ← sum_range_add_sum_Ico _ hle, sum_eq_zero (s := Ico _ _), add_zero]
    intro a ha
    rw [ND.oob2 q1 (by have := mem_Ico.1 ha; omega), zero_mul])
  have h0 : (sumIdx A.shape fun p => (A.get p - A.get p) ^ 2) = 0 := sumIdx_eq_zero fun _ _ => by simp
  rw [h0, mul_zero] at h
  exact le_antisymm h (distSq_nonneg _ _)

/-- **C49, tensors of any format.** The dense form of a tensor given in any format is what `tt_svd` reproduces. -/
theorem C49_formats {la : LinAlg} (hs : la.SVDThinOk) (X : Tensor ℝ) (hX : X.Valid) (hd : 2 ≤ X.shape.length)
    (hpos : ∀ n ∈ X.shape, 0 < n) :
    ∃ Y, ttSvd la X.toNumpy none = .ok Y ∧ Y.toNumpy = X.toNumpy := by
  have := Tensor.toNumpy_shape hX
  exact C49_none hs X.toNumpy (by rw [this]; exact hd) (by rw [this]; exact hpos)

/-- **C49, one mode.** `tt_svd` of a tensor with a single mode raises `IndexError`. -/
theorem C49_one_mode (la : LinAlg) (A : ND ℝ) (n : ℕ) (hA : A.shape = [n]) : ttSvd la A none = .error .indexError := by
  have h1 : processTTRank (.seq []) [n] true = .ok (trimRanks [n] []) := rfl
  have h2 : ttSvdTrace la A none = .error .indexError := by
    unfold ttSvdTrace
    rw [hA, Option.getD_none, show List.replicate (([n] : List ℕ).length - 1) ([n] : List ℕ).prod = [] from rfl, h1]
  unfold ttSvd
  rw [h2]; rfl

/-- a `2 × 3 × 2` array -/
example : laChoice.SVDThinOk ∧ 2 ≤ y9.shape.length ∧ (∀ n ∈ y9.shape, 0 < n) ∧
    (svdRanks y9.shape (some (.int 2))).length + 1 = y9.shape.length ∧
    (svdRanks y9.shape none).length + 1 = y9.shape.length ∧ z9.Valid ∧ z9.shape = y9.shape ∧
    RanksLe z9.rank (svdRanks y9.shape (some (.int 2))) :=
  ⟨laChoice_svdThin, by decide, by decide, rfl, rfl, ⟨by simp [z9], 2, 1, rfl, 3, 1, rfl, 2, 1, rfl, rfl⟩, rfl, rfl,
    fun i hi => by
      have : i < 2 := hi
      interval_cases i <;> simp [z9, TT.rank, ND.dim, svdRanks, askedRanks, y9]⟩

end TTS.Props
