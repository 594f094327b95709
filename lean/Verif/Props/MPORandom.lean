import Verif.Spec.MPORandom
import Verif.Props.MPO
import Verif.Props.Random

/-!
# Property C71: `MPO.random`
-/

namespace TTS.Props

open TTS Finset

/-- folding into the square shape is the plain transpose -/
theorem foldedDraw_square (g : List ℕ → ℝ) {s a i j b : ℕ} (hj : j < s) :
    foldedDraw g s s a i j b = g [a, i, j, b] + g [a, j, i, b] := by
  have h1 : (i * s + j) % s = j := by rw [Nat.mul_add_mod_self_right, Nat.mod_eq_of_lt hj]
  have h2 : (i * s + j) / s = i := by
    rw [Nat.mul_comm, Nat.mul_add_div (by omega), Nat.div_eq_of_lt hj, Nat.add_zero]
  rw [foldedDraw, h1, h2]

/-- the array before normalisation -/
noncomputable def folded (C : ND ℝ) : ND ℝ := C.add ((C.transpose [0, 2, 1, 3]).reshape C.shape)

theorem folded_get (g : List ℕ → ℝ) {r1 s1 s2 r2 a i j b : ℕ} (ha : a < r1) (hi : i < s1) (hj : j < s2) (hb : b < r2) :
    (folded (ND.ofFn [r1, s1, s2, r2] g)).get [a, i, j, b] = foldedDraw g s1 s2 a i j b := by
  set C : ND ℝ := ND.ofFn [r1, s1, s2, r2] g with hC
  have hs : C.shape = [r1, s1, s2, r2] := rfl
  have hlt : i * s2 + j < s2 * s1 := by rw [Nat.mul_comm s2 s1]; exact mul_add_lt hi hj
  have hp : (i * s2 + j) / s1 < s2 := Nat.div_lt_of_lt_mul (hlt.trans_eq (Nat.mul_comm _ _))
  have hq : (i * s2 + j) % s1 < s1 := Nat.mod_lt _ (by omega)
  have hin : InR [r1, s1, s2, r2] [a, i, j, b] := by simp [ha, hi, hj, hb]
  have htr : (C.transpose [0, 2, 1, 3]).shape = [r1, s2, s1, r2] := ND.transpose0213_shape hs
  unfold folded
  rw [ND.add_get C _ (by rfl), foldedDraw]
  congr 1
  · exact ND.ofFn_get hin
  · rw [hs, ND.reshape_get_of_ravel (j := [a, (i * s2 + j) / s1, (i * s2 + j) % s1, b]) hin
      (by rw [htr]; simp [ha, hp, hq, hb]), ND.transpose0213_get hs]
    · exact ND.ofFn_get (by simp [ha, hp, hq, hb])
    · rw [htr]
      simp only [ravel_cons, List.prod_cons, List.prod_nil]
      have e := Nat.div_add_mod (i * s2 + j) s1
      have : i * (s2 * (r2 * 1)) + (j * (r2 * 1)) = (s1 * ((i * s2 + j) / s1) + (i * s2 + j) % s1) * r2 := by
        rw [e]; ring
      have h3 : (i * s2 + j) / s1 * (s1 * (r2 * 1)) + ((i * s2 + j) % s1 * (r2 * 1))
          = (s1 * ((i * s2 + j) / s1) + (i * s2 + j) % s1) * r2 := by ring
      rw [show a * (s1 * (s2 * (r2 * 1))) = a * (s2 * (s1 * (r2 * 1))) by ring]
      omega

theorem sumIdx4 (f : List ℕ → ℝ) (r1 s1 s2 r2 : ℕ) : sumIdx [r1, s1, s2, r2] f
    = ∑ a ∈ range r1, ∑ i ∈ range s1, ∑ j ∈ range s2, ∑ b ∈ range r2, f [a, i, j, b] := by
  simp [sumIdx]

theorem folded_sq (g : List ℕ → ℝ) (r1 s1 s2 r2 : ℕ) :
    (sumIdx [r1, s1, s2, r2] fun i => (folded (ND.ofFn [r1, s1, s2, r2] g)).get i ^ 2) = foldedSq g r1 s1 s2 r2 := by
  rw [sumIdx4, foldedSq]
  refine sum_congr rfl fun a ha => sum_congr rfl fun i hi => sum_congr rfl fun j hj => sum_congr rfl fun b hb => ?_
  rw [folded_get g (mem_range.1 ha) (mem_range.1 hi) (mem_range.1 hj) (mem_range.1 hb)]

theorem randomCore_get (g : List ℕ → ℝ) {r1 s1 s2 r2 a i j b : ℕ} (ha : a < r1) (hi : i < s1) (hj : j < s2)
    (hb : b < r2) : (MPO.randomCore (ND.ofFn [r1, s1, s2, r2] g) s1 s2).get [a, i, j, b]
      = foldedDraw g s1 s2 a i j b * √ ((s1 * s2 : ℕ) : ℝ) / √ (foldedSq g r1 s1 s2 r2) := by
  show ((((folded (ND.ofFn [r1, s1, s2, r2] g)).smul _).smul _).get _ = _)
  rw [ND.smul_get, ND.smul_get, folded_get g ha hi hj hb, ← folded_sq]
  show _ * (1 / √ (sumIdx [r1, s1, s2, r2] fun i => (folded (ND.ofFn [r1, s1, s2, r2] g)).get i ^ 2)) = _
  ring

theorem foldedSq_nonneg (g : List ℕ → ℝ) (r1 s1 s2 r2 : ℕ) : 0 ≤ foldedSq g r1 s1 s2 r2 :=
  sum_nonneg fun _ _ => sum_nonneg fun _ _ => sum_nonneg fun _ _ => sum_nonneg fun _ _ => sq_nonneg _

theorem randomCore_sq (g : List ℕ → ℝ) {r1 s1 s2 r2 : ℕ} (h : foldedSq g r1 s1 s2 r2 ≠ 0) :
    entrySq (MPO.randomCore (ND.ofFn [r1, s1, s2, r2] g) s1 s2) = (s1 * s2 : ℕ) := by
  unfold entrySq
  rw [show (MPO.randomCore (ND.ofFn [r1, s1, s2, r2] g) s1 s2).shape = [r1, s1, s2, r2] from rfl, sumIdx4]
  have : ∀ a ∈ range r1, ∀ i ∈ range s1, ∀ j ∈ range s2, ∀ b ∈ range r2,
      (MPO.randomCore (ND.ofFn [r1, s1, s2, r2] g) s1 s2).get [a, i, j, b] ^ 2
        = ((s1 * s2 : ℕ) : ℝ) / foldedSq g r1 s1 s2 r2 * foldedDraw g s1 s2 a i j b ^ 2 := by
    intro a ha i hi j hj b hb
    rw [randomCore_get g (mem_range.1 ha) (mem_range.1 hi) (mem_range.1 hj) (mem_range.1 hb), div_pow, mul_pow,
      Real.sq_sqrt (Nat.cast_nonneg _), Real.sq_sqrt (foldedSq_nonneg _ _ _ _ _)]
    ring
  rw [sum_congr rfl fun a ha => sum_congr rfl fun i hi => sum_congr rfl fun j hj => sum_congr rfl fun b hb =>
    this a ha i hi j hj b hb]
  simp only [← mul_sum]
  rw [show (∑ a ∈ range r1, ∑ i ∈ range s1, ∑ j ∈ range s2, ∑ b ∈ range r2, foldedDraw g s1 s2 a i j b ^ 2)
    = foldedSq g r1 s1 s2 r2 from rfl, div_mul_cancel₀ _ h]

theorem mpoChain_range {K : Type*} [Zero K] : ∀ (d : ℕ) (C : ℕ → ND K) (B : ℕ → ℕ),
    (∀ k < d, ∃ n m, (C k).shape = [B k, n, m, B (k + 1)]) → MPOChain (B 0) ((List.range d).map C) (B d)
  | 0, _, _, _ => rfl
  | d + 1, C, B, h => by
    rw [List.range_succ_eq_map, List.map_cons, List.map_map]
    obtain ⟨n, m, hs⟩ := h 0 (by omega)
    exact ⟨n, m, B 1, hs, mpoChain_range d (fun k => C (k + 1)) (fun k => B (k + 1)) fun k hk => h (k + 1) (by omega)⟩

/-- the cores in closed form -/
theorem random_cores (draw : ℕ → List ℕ → ℝ) (rank : RankArg) (inS outS : List ℕ) (hlen : inS.length = outS.length)
    (hl : (askedRanks inS rank).length + 1 = inS.length) (rk : List ℕ)
    (hrk : rk = trimRanks (List.zipWith (· * ·) inS outS) (askedRanks inS rank)) :
    rk.length + 1 = inS.length ∧
    MPO.random draw rank inS outS = .ok ⟨(List.range inS.length).map fun k =>
      MPO.randomCore (ND.ofFn [(Spec.bonds rk).getD k 0, inS.getD k 0, outS.getD k 0, (Spec.bonds rk).getD (k + 1) 0]
        (draw k)) (inS.getD k 0) (outS.getD k 0)⟩ := by
  set P := List.zipWith (· * ·) inS outS with hP
  have hPl : P.length = inS.length := by rw [hP, List.length_zipWith, ← hlen, min_self]
  have hask : ranksOf rank P.length = askedRanks inS rank := by rw [hPl, asked_eq]
  have hproc : processTTRank rank P true = .ok rk := by
    rw [process_ok true (by omega) (by rw [hask]; omega), hask, hrk]; rfl
  have hrl : rk.length + 1 = inS.length := by rw [hrk, trimRanks_length _ _ (by omega)]; omega
  refine ⟨hrl, ?_⟩
  unfold MPO.random
  rw [hproc]
  show Except.ok _ = Except.ok _
  congr 2
  apply List.ext_getElem
  · simp; omega
  · intro k h1 h2
    have hk : k < inS.length := by simpa using h2
    have e1 : (Spec.bonds rk).getD k 0 = (1 :: rk)[k]'(by simp; omega) := by
      rw [Spec.bonds, ← List.cons_append, getD_eq (by simp; omega), List.getElem_append_left (by simp; omega)]
    have e2 : (Spec.bonds rk).getD (k + 1) 0 = (rk ++ [1])[k]'(by simp; omega) := by
      rw [Spec.bonds, getD_eq (by simp; omega), List.getElem_cons_succ]
    simp only [List.getElem_map, List.getElem_zipIdx, List.getElem_zip, List.getElem_range, Nat.zero_add]
    rw [e1, e2, getD_eq hk, getD_eq (hlen ▸ hk)]

theorem map_range_getD {l : List ℕ} : ((List.range l.length).map fun k => l.getD k 0) = l := by
  apply List.ext_getElem
  · simp
  · intro k h1 h2
    simp [h2]

/-- **C71.** For input and output shapes of the same length and a rank for every bond, `MPO.random` succeeds; the result
has these shapes and the ranks asked for, trimmed to what the products of input and output sizes allow.  Entry
`(a, i, j, b)` of core `k` is the folded random number (array plus its re-read transpose) times `sqrt(in * out)` over
the Frobenius norm of the folded array, so that -- unless all of them vanish -- the squared entries of the core sum to
`in * out`.  A core with a non-zero random number in its first position is such a core. -/
theorem C71 (draw : ℕ → List ℕ → ℝ) (rank : RankArg) (inS outS : List ℕ) (hlen : inS.length = outS.length)
    (hl : (askedRanks inS rank).length + 1 = inS.length) :
    ∃ A, MPO.random draw rank inS outS = .ok A ∧ A.Valid ∧ A.inShape = inS ∧ A.outShape = outS ∧
      A.rank = trimRanks (List.zipWith (· * ·) inS outS) (askedRanks inS rank) ∧
      ∀ k < inS.length, ∀ r1 r2 s1 s2, r1 = (Spec.bonds A.rank).getD k 0 → r2 = (Spec.bonds A.rank).getD (k + 1) 0 →
        s1 = inS.getD k 0 → s2 = outS.getD k 0 →
        (∀ a < r1, ∀ i < s1, ∀ j < s2, ∀ b < r2, (A.cores.getD k (ND.zeros [])).get [a, i, j, b]
          = foldedDraw (draw k) s1 s2 a i j b * √ ((s1 * s2 : ℕ) : ℝ) / √ (foldedSq (draw k) r1 s1 s2 r2)) ∧
        (foldedSq (draw k) r1 s1 s2 r2 ≠ 0 → entrySq (A.cores.getD k (ND.zeros [])) = (s1 * s2 : ℕ)) ∧
        (0 < r1 → 0 < s1 → 0 < s2 → 0 < r2 → draw k [0, 0, 0, 0] ≠ 0 → foldedSq (draw k) r1 s1 s2 r2 ≠ 0) := by
  obtain ⟨hrl, hok⟩ := random_cores draw rank inS outS hlen hl _ rfl
  set rk := trimRanks (List.zipWith (· * ·) inS outS) (askedRanks inS rank) with hrk
  set C : ℕ → ND ℝ := fun k => MPO.randomCore (ND.ofFn [(Spec.bonds rk).getD k 0, inS.getD k 0, outS.getD k 0,
    (Spec.bonds rk).getD (k + 1) 0] (draw k)) (inS.getD k 0) (outS.getD k 0) with hC
  have hs : ∀ k, (C k).shape = [(Spec.bonds rk).getD k 0, inS.getD k 0, outS.getD k 0, (Spec.bonds rk).getD (k + 1) 0] :=
    fun _ => rfl
  have hrank : (MPO.mk ((List.range inS.length).map C)).rank = rk := by
    unfold MPO.rank
    obtain ⟨d, hd⟩ : ∃ d, inS.length = d + 1 := ⟨inS.length - 1, by omega⟩
    simp only [hd, List.range_succ_eq_map, List.map_cons, List.tail_cons, List.map_map]
    have : d = rk.length := by omega
    rw [this]
    refine Eq.trans (List.map_congr_left fun k hk => ?_) (map_range_getD (l := rk))
    have hk : k < rk.length := by simpa using hk
    simp only [Function.comp, ND.dim, hs, List.getD_cons_zero]
    simp [Spec.bonds, hk, List.getElem?_append]
  refine ⟨_, hok, ⟨?_, ?_⟩, ?_, ?_, hrank, ?_⟩
  · simp only [ne_eq, List.map_eq_nil_iff, List.range_eq_nil]; omega
  · have := mpoChain_range inS.length C (fun k => (Spec.bonds rk).getD k 0) fun k _ => ⟨_, _, hs k⟩
    have e : (Spec.bonds rk).getD inS.length 0 = 1 := by rw [← hrl]; simp [Spec.bonds]
    simpa only [e, show (Spec.bonds rk).getD 0 0 = 1 from rfl] using this
  · unfold MPO.inShape
    rw [List.map_map]
    exact map_range_getD
  · unfold MPO.outShape
    rw [List.map_map, hlen]
    exact map_range_getD
  · intro k hk r1 r2 s1 s2 e1 e2 e3 e4
    rw [hrank] at e1 e2
    show (_ ∧ _ ∧ _)
    rw [getD_map_range _ _ _ _ hk]
    subst e1 e2 e3 e4
    refine ⟨fun a ha i hi j hj b hb => randomCore_get (draw k) ha hi hj hb, fun h => randomCore_sq (draw k) h, ?_⟩
    intro p1 p2 p3 p4 h0 hz
    have hz1 := (sum_eq_zero_iff_of_nonneg fun a _ => sum_nonneg fun _ _ => sum_nonneg fun _ _ => sum_nonneg
      fun _ _ => sq_nonneg _).1 hz 0 (mem_range.2 p1)
    have hz2 := (sum_eq_zero_iff_of_nonneg fun a _ => sum_nonneg fun _ _ => sum_nonneg
      fun _ _ => sq_nonneg _).1 hz1 0 (mem_range.2 p2)
    have hz3 := (sum_eq_zero_iff_of_nonneg fun a _ => sum_nonneg fun _ _ => sq_nonneg _).1 hz2 0 (mem_range.2 p3)
    have hz4 := (sum_eq_zero_iff_of_nonneg fun a _ => sq_nonneg _).1 hz3 0 (mem_range.2 p4)
    rw [pow_eq_zero_iff (by norm_num), foldedDraw] at hz4
    simp at hz4
    exact h0 hz4

/-- **C71, rejection.** A sequence of ranks of the wrong length is a `ValueError`. -/
theorem C71_reject (draw : ℕ → List ℕ → ℝ) (rs inS outS : List ℕ) (hlen : inS.length = outS.length)
    (h : rs.length + 1 ≠ inS.length) : MPO.random draw (.seq rs) inS outS = .error .valueError := by
  unfold MPO.random
  have hP : (List.zipWith (· * ·) inS outS).length = inS.length := by rw [List.length_zipWith, ← hlen, min_self]
  rw [process_eq, if_pos]
  rw [hP]
  exact h

/-- the folded array of a square core is symmetric, and so are its multiples -/
theorem randomCore_T (g : List ℕ → ℝ) (r1 s r2 : ℕ) :
    (MPO.randomCore (ND.ofFn [r1, s, s, r2] g) s s).transpose [0, 2, 1, 3]
      = MPO.randomCore (ND.ofFn [r1, s, s, r2] g) s s := by
  set C := MPO.randomCore (ND.ofFn [r1, s, s, r2] g) s s with hC
  have hs : C.shape = [r1, s, s, r2] := rfl
  have ht : (C.transpose [0, 2, 1, 3]).shape = [r1, s, s, r2] := ND.transpose0213_shape hs
  refine ND.ext' (ht.trans hs.symm) fun i hi => ?_
  rw [ht] at hi
  match i, hi with
  | [a, x, y, b], hi =>
    simp only [inR_cons_cons, InR, and_true] at hi
    obtain ⟨ha, hx, hy, hb⟩ := hi
    rw [ND.transpose0213_get hs, hC, randomCore_get g ha hy hx hb, randomCore_get g ha hx hy hb,
      foldedDraw_square g hx, foldedDraw_square g hy, add_comm]

/-- **C71, symmetry.** With the same input and output shape the random map is symmetric: it is its own transpose, its
matrix is symmetric, and `⟨A(x), y⟩ = ⟨x, A(y)⟩` for the inner products computed by `dot`. -/
theorem C71_symmetric (draw : ℕ → List ℕ → ℝ) (rank : RankArg) (shape : List ℕ)
    (hl : (askedRanks shape rank).length + 1 = shape.length) (A : MPO ℝ)
    (h : MPO.random draw rank shape shape = .ok A) :
    A.T = A ∧ (∀ j k, InR shape j → InR shape k → A.toNumpy.get (interleave k j) = A.toNumpy.get (interleave j k)) ∧
    ∀ X Y : TT ℝ, X.Valid → Y.Valid → X.shape = shape → Y.shape = shape →
      (A.call X).dot Y = X.dot (A.call Y) := by
  obtain ⟨A', h1, h2, h3, h4, -, -⟩ := C71 draw rank shape shape rfl hl
  obtain rfl : A' = A := by rw [h1] at h; exact Except.ok.inj h
  obtain ⟨_, hok⟩ := random_cores draw rank shape shape rfl hl _ rfl
  have hT : A'.T = A' := by
    rw [h1] at hok
    rw [Except.ok.inj hok]
    unfold MPO.T
    congr 1
    rw [List.map_map]
    exact List.map_congr_left fun k _ => randomCore_T _ _ _ _
  refine ⟨hT, fun j k hj hk => ?_, fun X Y hX hY sX sY => ?_⟩
  · have := (C51_T A' h2).2.2.2.2.2 j k (by rwa [h3]) (by rwa [h4])
    rwa [hT] at this
  · have := C51_adjoint A' X Y h2 hX hY (by rw [sX, h3]) (by rw [sY, h4])
    rwa [hT] at this

/-- a draw with different numbers in all positions -/
def mpoDraw (k : ℕ) (i : List ℕ) : ℝ := (k + ravel [5, 5, 5, 5] i + 1 : ℕ)

/-- rectangular: input `(2, 3)`, output `(3, 2)`, rank `9` trimmed to `6`; the first core has squared norm `6` -/
example : ∃ A, MPO.random mpoDraw (.int 9) [2, 3] [3, 2] = .ok A ∧ A.rank = [6] ∧
    entrySq (A.cores.getD 0 (ND.zeros [])) = 6 := by
  obtain ⟨A, h1, _, _, _, h5, h6⟩ := C71 mpoDraw (.int 9) [2, 3] [3, 2] rfl rfl
  have hr : A.rank = [6] := h5.trans (by decide +kernel)
  refine ⟨A, h1, hr, ?_⟩
  obtain ⟨_, a2, a3⟩ := h6 0 (by simp) 1 6 2 3 rfl (by rw [hr]; rfl) rfl rfl
  have := a2 (a3 (by norm_num) (by norm_num) (by norm_num) (by norm_num) (by simp [mpoDraw]))
  rw [this]; norm_num

/-- square: a symmetric map on tensors of shape `(2, 3)` -/
example : ∃ A, MPO.random mpoDraw (.seq [3]) [2, 3] [2, 3] = .ok A ∧ A.T = A ∧ A.rank = [3] := by
  obtain ⟨A, h1, _, _, _, h5, _⟩ := C71 mpoDraw (.seq [3]) [2, 3] [2, 3] rfl rfl
  exact ⟨A, h1, (C71_symmetric mpoDraw (.seq [3]) [2, 3] rfl A h1).1, h5.trans (by decide +kernel)⟩

end TTS.Props
