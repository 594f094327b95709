import Verif.Props.Random

/-!
# Property C65: random dense, sparse, CP and Tucker tensors
-/

namespace TTS.Props

open TTS Finset

section
variable {K : Type*} [CommRing K]

/-- **C65, `DenseTensor.random`**: an array of the shape, filled in row-major order; `TypeError` for the shape `()`. -/
theorem C65_dense (env : Env K) (shape : List ℕ) (seed : ℕ) :
    (shape ≠ [] → ∃ X, denseRandom env shape seed = .ok X ∧ X.shape = shape ∧
      ∀ k < shape.prod, X.get (unravel shape k) = env.randomNormal seed shape.prod k) ∧
    (shape = [] → denseRandom env shape seed = .error .typeError) := by
  constructor
  · intro h
    refine ⟨_, if_neg h, rfl, fun k hk => ?_⟩
    rw [ND.ofFn_get (unravel_inR hk), ravel_unravel hk]
  · intro h; exact if_pos h

/-- **C65, `SparseTensor.random`**: a tensor of the shape with `nnz` stored entries at distinct positions, the `k`-th
stored value being the `k`-th random number.  Rejected with `ValueError` exactly if there are fewer than `nnz` positions,
the shape is `()` or the seed is not below `2^32`. -/
theorem C65_sparse (env : Env K) (choice : Option ℕ → ℕ → ℕ → List ℕ) (hc : ChoiceContract choice) (fresh : ℕ)
    (shape : List ℕ) (nnz : ℕ) (seed : Option ℕ) :
    (shape ≠ [] → nnz ≤ shape.prod → (∀ s, seed = some s → s < 2 ^ 32) →
      ∃ X, Sparse.random env choice fresh shape nnz seed = .ok X ∧ X.shape = shape ∧ X.nnz = nnz ∧ X.Valid ∧ X.Distinct ∧
        X.entries.map Prod.snd = (List.range nnz).map (env.randomNormal (seed.getD fresh) nnz)) ∧
    ((shape = [] ∨ shape.prod < nnz ∨ ∃ s, seed = some s ∧ 2 ^ 32 ≤ s) →
      Sparse.random env choice fresh shape nnz seed = .error .valueError) := by
  constructor
  · intro h1 h2 h3
    obtain ⟨c1, c2, c3⟩ := hc seed shape.prod nnz h2
    refine ⟨⟨shape, (choice seed shape.prod nnz).mapIdx fun k f =>
      (unravel shape f, env.randomNormal (seed.getD fresh) nnz k)⟩, ?_, rfl, by simp [Sparse.nnz, c1], ?_, ?_, ?_⟩
    · unfold Sparse.random
      rw [if_neg, if_neg h1, if_neg (by omega)]
      rintro ⟨s, hs, h⟩
      exact absurd (h3 s hs) (by omega)
    · intro e he
      obtain ⟨k, hk, rfl⟩ := List.mem_mapIdx.1 he
      exact unravel_inR (c3 _ (List.getElem_mem _))
    · unfold Sparse.Distinct
      have : ((choice seed shape.prod nnz).mapIdx fun k f =>
          (unravel shape f, env.randomNormal (seed.getD fresh) nnz k)).map Prod.fst
          = (choice seed shape.prod nnz).map (unravel shape) := by
        apply List.ext_getElem <;> simp
      rw [this]
      refine (List.nodup_map_iff_inj_on c2).2 fun x hx y hy hxy => ?_
      rw [← ravel_unravel (c3 x hx), ← ravel_unravel (c3 y hy), hxy]
    · apply List.ext_getElem <;> simp [c1]
  · intro h
    unfold Sparse.random
    split
    · rfl
    · next hn =>
      split
      · rfl
      · next h2 =>
        split
        · rfl
        · next h3 => rcases h with h | h | h <;> contradiction

/-- **C65, `CPTensor.random`**: a CP tensor of the shape and rank; entry `(j, b)` of factor `i` is the corresponding
random number divided by `sqrt(n_i)`; every factor has its own generator.  `IndexError` for the shape `()`. -/
theorem C65_cp (env : Env K) (shape : List ℕ) (rank seed : ℕ) :
    (shape ≠ [] → ∃ X, CP.random env shape rank seed = .ok X ∧ X.Valid ∧ X.shape = shape ∧ X.rank = rank ∧
      ∀ i < shape.length, ∀ j < shape.getD i 0, ∀ b < rank, (X.cores.getD i (ND.zeros [])).get [j, b]
        = env.randomNormal (env.genState seed shape.length i) (shape.getD i 0 * rank) (j * rank + b)
          * env.invSqrt (shape.getD i 0)) ∧
    (shape = [] → CP.random env shape rank seed = .error .indexError) := by
  constructor
  · intro h
    have hlen : 0 < shape.length := List.length_pos_of_ne_nil h
    have hr : (CP.mk ((List.range shape.length).map (CP.randomCore env shape rank seed))).rank = rank := by
      obtain ⟨d, hd⟩ : ∃ d, shape.length = d + 1 := ⟨shape.length - 1, by omega⟩
      unfold CP.rank
      simp only [hd, List.range_succ_eq_map, List.map_cons, List.headD_cons]
      rfl
    refine ⟨_, if_neg h, ⟨by simp [h], fun C hC => ?_⟩, ?_, hr, fun i hi j hj b hb => ?_⟩
    · rw [hr]
      obtain ⟨i, -, rfl⟩ := List.mem_map.1 hC
      exact ⟨_, rfl⟩
    · show ((List.range shape.length).map (CP.randomCore env shape rank seed)).map _ = _
      rw [List.map_map]
      refine List.ext_getElem (by simp) fun i h1 h2 => ?_
      simp only [List.getElem_map, List.getElem_range, Function.comp]
      show shape.getD i 0 = _
      rw [List.getD_eq_getElem _ _ h2]
    · show ND.get (List.getD _ i _) _ = _
      rw [getD_map_range _ _ _ _ hi, CP.randomCore, ND.smul_get,
        ND.ofFn_get (show InR [_, _] [_, _] from ⟨hj, hb, trivial⟩)]
      simp [ravel]
  · intro h; exact if_pos h

/-- The ranks `TuckerTensor.random` is asked for, one per mode. -/
def tuckerAsked (shape : List ℕ) : RankArg → List ℕ
  | .int r => List.replicate shape.length r
  | .seq rs => rs

theorem randomRank_eq (shape : List ℕ) (rank : RankArg) :
    Tucker.randomRank shape rank = List.zipWith min (tuckerAsked shape rank) shape := by cases rank <;> rfl

/-- **C65, `TuckerTensor.random`.** A Tucker tensor whose modes are the first ones of the shape, as many as there are
ranks; every rank is cut to the mode size, the rows of every factor are orthonormal (and the factor times its random
matrix is triangular), and the core holds the random numbers. -/
theorem C65_tucker (env : Env K) (hQ : QRContract env) (shape : List ℕ) (rank : RankArg) (seed : ℕ)
    (h0 : shape ≠ []) (hr : tuckerAsked shape rank ≠ []) :
    ∃ X, Tucker.random env shape rank seed = .ok X ∧ X.Valid ∧
      X.shape = shape.take (tuckerAsked shape rank).length ∧
      X.rank = List.zipWith min (tuckerAsked shape rank) shape ∧
      (∀ k < X.rank.prod, X.core.get (unravel X.rank k) = env.randomNormal (env.genState seed 1 0) X.rank.prod k) ∧
      ∀ i < X.shape.length,
        (∀ s < X.rank.getD i 0, ∀ t < X.rank.getD i 0,
          ∑ j ∈ range (shape.getD i 0), (X.factors.getD i (ND.zeros [])).get [s, j] * (X.factors.getD i (ND.zeros [])).get [t, j]
            = if s = t then 1 else 0) ∧
        ∃ L : ℕ → ℕ → K, (∀ t < X.rank.getD i 0, ∀ s < t, L s t = 0) ∧ ∀ s < X.rank.getD i 0, ∀ j < shape.getD i 0,
          ∑ t ∈ range (X.rank.getD i 0), L s t * (X.factors.getD i (ND.zeros [])).get [t, j]
            = env.randomNormal (env.genState seed shape.length i) (X.rank.getD i 0 * shape.getD i 0)
                (s * shape.getD i 0 + j) := by
  set rk := List.zipWith min (tuckerAsked shape rank) shape with hrk
  have hrkl : rk.length = min (tuckerAsked shape rank).length shape.length := by simp [hrk]
  have hne : rk ≠ [] := by
    intro h
    have := congrArg List.length h
    rw [hrkl] at this
    have a := List.length_pos_of_ne_nil h0
    have b := List.length_pos_of_ne_nil hr
    rw [List.length_nil] at this
    omega
  have hle : ∀ i < rk.length, rk.getD i 0 ≤ shape.getD i 0 := by
    intro i hi
    rw [List.getD_eq_getElem _ _ hi, List.getD_eq_getElem _ _ (by omega), List.getElem_zipWith]
    exact min_le_right _ _
  set M : ℕ → ND K := fun i => ND.ofFn [rk.getD i 0, shape.getD i 0] fun ij =>
    env.randomNormal (env.genState seed shape.length i) (rk.getD i 0 * shape.getD i 0)
      (ravel [rk.getD i 0, shape.getD i 0] ij) with hM
  have hMs : ∀ i, (M i).matT.shape = [shape.getD i 0, rk.getD i 0] := fun i => rfl
  have hq := fun i => hQ _ _ _ (hMs i)
  have hQs : ∀ i < rk.length, (env.qr (M i).matT).1.shape = [shape.getD i 0, rk.getD i 0] := fun i hi => by
    rw [(hq i).shapeQ, min_eq_right (hle i hi)]
  set F : ℕ → ND K := fun i => Tucker.randomFactor env seed shape.length i (rk.getD i 0) (shape.getD i 0) with hF
  have hFe : ∀ i, F i = (env.qr (M i).matT).1.matT := fun _ => rfl
  have hFs : ∀ i < rk.length, (F i).shape = [rk.getD i 0, shape.getD i 0] := fun i hi => by
    rw [hFe, ND.matT_shape (hQs i hi)]
  have hFg : ∀ i < rk.length, ∀ s j, (F i).get [s, j] = (env.qr (M i).matT).1.get [j, s] := fun i hi s j => by
    rw [hFe, ND.matT_get (hQs i hi)]
  set X : Tucker K := ⟨(List.range rk.length).map F, ND.ofFn rk fun i =>
    env.randomNormal (env.genState seed 1 0) rk.prod (ravel rk i)⟩ with hX
  have hok : Tucker.random env shape rank seed = .ok X := by
    unfold Tucker.random randomArray
    simp only [randomRank_eq]
    rw [← hrk, if_neg hne]
  have hsh : X.shape = shape.take (tuckerAsked shape rank).length := by
    show ((List.range rk.length).map F).map _ = _
    rw [List.map_map]
    refine List.ext_getElem (by simp [hrkl]) fun i h1 h2 => ?_
    have hi : i < rk.length := by simpa using h1
    simp only [List.getElem_map, List.getElem_range, Function.comp, List.getElem_take]
    rw [ND.dim, hFs i hi, ← List.getD_eq_getElem shape 0 (by omega)]; rfl
  have hrank : X.rank = rk := by
    show ((List.range rk.length).map F).map _ = _
    rw [List.map_map]
    refine List.ext_getElem (by simp) fun i h1 h2 => ?_
    simp only [List.getElem_map, List.getElem_range, Function.comp]
    rw [ND.dim, hFs i h2, ← List.getD_eq_getElem rk 0 h2]; rfl
  refine ⟨X, hok, ⟨fun U hU => ?_, hrank.symm⟩, hsh, hrank, ?_, ?_⟩
  · obtain ⟨i, hi, rfl⟩ := List.mem_map.1 hU
    exact ⟨_, _, hFs i (List.mem_range.1 hi)⟩
  · rw [hrank]
    intro k hk
    show (ND.ofFn rk _).get _ = _
    rw [ND.ofFn_get (unravel_inR hk), ravel_unravel hk]
  · rw [hrank]
    intro i hi
    have hi : i < rk.length := by
      rw [← hrank, Tucker.rank, List.length_map]
      rwa [Tucker.shape, List.length_map] at hi
    have hmin := min_eq_right (hle i hi)
    rw [show X.factors.getD i (ND.zeros []) = F i from getD_map_range _ _ _ _ hi]
    constructor
    · intro s hs t ht
      rw [← (hq i).orth s (by rw [hmin]; exact hs) t (by rw [hmin]; exact ht)]
      exact sum_congr rfl fun j _ => by rw [hFg i hi, hFg i hi]
    · refine ⟨fun s t => (env.qr (M i).matT).2.get [t, s], fun t ht s hs => (hq i).upper t (by rw [hmin]; exact ht) s hs,
        fun s hs j hj => ?_⟩
      have := (hq i).mul j hj s hs
      rw [hmin, ND.matT_get (A := M i) rfl, hM] at this
      beta_reduce at this
      rw [ND.ofFn_get (show InR [_, _] [_, _] from ⟨hs, hj, trivial⟩)] at this
      simp only [ravel, List.prod_cons, List.prod_nil, mul_one, add_zero] at this
      rw [← this]
      exact sum_congr rfl fun t _ => by rw [hFg i hi, mul_comm]

/-- **C65, Tucker, edge cases.** With a rank sequence shorter than the shape the result silently has only as many modes as
there are ranks; without any mode or rank the call raises `TypeError`. -/
theorem C65_tucker_short (env : Env K) (hQ : QRContract env) (shape rs : List ℕ) (seed : ℕ) (h : rs ≠ [])
    (hl : rs.length < shape.length) : ∃ X, Tucker.random env shape (.seq rs) seed = .ok X ∧
      X.shape = shape.take rs.length ∧ X.shape ≠ shape := by
  obtain ⟨X, h1, -, h3, -⟩ := C65_tucker env hQ shape (.seq rs) seed
    (by rintro rfl; simp at hl) h
  refine ⟨X, h1, h3, ?_⟩
  rw [h3]
  intro he
  have := congrArg List.length he
  rw [List.length_take] at this
  have h' : (tuckerAsked shape (.seq rs)).length = rs.length := rfl
  omega

/-- **C65, Tucker, no modes.** -/
theorem C65_tucker_empty (env : Env K) (shape : List ℕ) (rank : RankArg) (seed : ℕ)
    (h : shape = [] ∨ tuckerAsked shape rank = []) : Tucker.random env shape rank seed = .error .typeError := by
  have : Tucker.randomRank shape rank = [] := by
    rw [randomRank_eq]
    rcases h with h | h <;> rw [h] <;> simp
  unfold Tucker.random randomArray
  simp only [this, if_true]

/-- **C65, Tucker, finding.** The core is drawn from the generator of the first factor: if core and first random matrix
have the same size, they consist of the same numbers in the same order. -/
theorem C65_tucker_shared (env : Env K) (hQ : QRContract env) (hp : StatePrefix env) (shape : List ℕ) (rank : RankArg)
    (seed : ℕ) (h0 : shape ≠ []) (hr : tuckerAsked shape rank ≠ []) (X : Tucker K)
    (hX : Tucker.random env shape rank seed = .ok X) (hsz : X.rank.prod = X.rank.getD 0 0 * shape.getD 0 0) :
    ∃ L : ℕ → ℕ → K, (∀ t < X.rank.getD 0 0, ∀ s < t, L s t = 0) ∧ ∀ s < X.rank.getD 0 0, ∀ j < shape.getD 0 0,
      ∑ t ∈ range (X.rank.getD 0 0), L s t * (X.factors.getD 0 (ND.zeros [])).get [t, j]
        = X.core.get (unravel X.rank (s * shape.getD 0 0 + j)) := by
  obtain ⟨X', h1, -, h3, h4, h5, h6⟩ := C65_tucker env hQ shape rank seed h0 hr
  rw [h1] at hX
  injection hX with hX
  subst hX
  have hpos : 0 < shape.length := List.length_pos_of_ne_nil h0
  obtain ⟨-, L, l1, l2⟩ := h6 0 (by
    rw [h3, List.length_take]
    exact lt_min (List.length_pos_of_ne_nil hr) hpos)
  refine ⟨L, l1, fun s hs j hj => ?_⟩
  rw [l2 s hs j hj, h5 _ (by rw [hsz]; exact mul_add_lt hs hj), hsz, hp _ _ hpos]

end

/-! ### Norm of a random Tucker tensor -/

/-- Products of orthonormal rows are orthonormal. -/
theorem fac_gram : ∀ (Us : List (ND ℝ)),
    (∀ U ∈ Us, ∀ s < U.dim 0, ∀ t < U.dim 0, ∑ j ∈ range (U.dim 1), U.get [s, j] * U.get [t, j] = if s = t then 1 else 0) →
    ∀ q q' : List ℕ, InR (Us.map fun U => U.dim 0) q → InR (Us.map fun U => U.dim 0) q' →
      sumIdx (Us.map fun U => U.dim 1) (fun i => facProd Us q i * facProd Us q' i) = if q = q' then 1 else 0
  | [], _, [], [], _, _ => by simp [facProd]
  | U :: Us, h, a :: q, b :: q', h1, h2 => by
    have ih := fac_gram Us (fun V hV => h V (by simp [hV])) q q' h1.2 h2.2
    have hU := h U (by simp) a h1.1 b h2.1
    simp only [List.map_cons, sumIdx_cons, facProd]
    have : ∀ j, sumIdx (Us.map fun U => U.dim 1)
        (fun i => U.get [a, j] * facProd Us q i * (U.get [b, j] * facProd Us q' i))
        = U.get [a, j] * U.get [b, j] * if q = q' then 1 else 0 := by
      intro j
      rw [← ih, mul_sumIdx]
      exact sumIdx_congr fun i _ => by ring
    simp only [this]
    rw [← sum_mul, hU]
    by_cases hab : a = b <;> by_cases hq : q = q' <;> simp [hab, hq]

/-- A Tucker tensor whose factors have orthonormal rows has the norm of its core. -/
theorem tucker_norm {X : Tucker ℝ} (hX : X.Valid)
    (h : ∀ U ∈ X.factors, ∀ s < U.dim 0, ∀ t < U.dim 0,
      ∑ j ∈ range (U.dim 1), U.get [s, j] * U.get [t, j] = if s = t then 1 else 0) :
    normSq X.toNumpy = normSq X.core := by
  unfold normSq
  rw [Tucker.toNumpy_shape, hX.2]
  have e : ∀ i, X.toNumpy.get i ^ 2 = sumIdx X.rank fun q => sumIdx X.rank fun q' =>
      X.core.get q * X.core.get q' * (facProd X.factors q i * facProd X.factors q' i) := by
    intro i
    rw [Tucker.toNumpy_get hX, tuckerEntry, sq, sumIdx_mul]
    refine sumIdx_congr fun q _ => ?_
    rw [mul_sumIdx]
    exact sumIdx_congr fun q' _ => by ring
  simp only [e]
  rw [sumIdx_comm]
  refine sumIdx_congr fun q hq => ?_
  rw [sumIdx_comm]
  have : ∀ q', InR X.rank q' → sumIdx X.shape (fun i =>
      X.core.get q * X.core.get q' * (facProd X.factors q i * facProd X.factors q' i))
      = if q' = q then X.core.get q * X.core.get q' else 0 := by
    intro q' hq'
    rw [← mul_sumIdx, Tucker.shape, fac_gram X.factors h q q' hq hq']
    by_cases h : q = q'
    · rw [if_pos h, if_pos h.symm, mul_one]
    · rw [if_neg h, if_neg (fun h' => h h'.symm), mul_zero]
  rw [sumIdx_congr this, sumIdx_ite_eq hq, sq]

/-- **C65, Tucker, norm.** The Frobenius norm of a random Tucker tensor is that of its core. -/
theorem C65_tucker_norm (env : Env ℝ) (hQ : QRContract env) (shape : List ℕ) (rank : RankArg) (seed : ℕ) (X : Tucker ℝ)
    (hX : Tucker.random env shape rank seed = .ok X) : normSq X.toNumpy = normSq X.core := by
  by_cases h : shape = [] ∨ tuckerAsked shape rank = []
  · rw [C65_tucker_empty env shape rank seed h] at hX; simp at hX
  · obtain ⟨X', h1, h2, h3, h4, -, h6⟩ := C65_tucker env hQ shape rank seed (fun a => h (.inl a)) (fun a => h (.inr a))
    rw [h1] at hX
    injection hX with hX
    subst hX
    refine tucker_norm h2 fun U hU s hs t ht => ?_
    obtain ⟨i, hi, rfl⟩ := List.getElem_of_mem hU
    have e1 : X'.rank.getD i 0 = (X'.factors[i]).dim 0 := by
      rw [Tucker.rank, List.getD_eq_getElem _ _ (by simpa using hi), List.getElem_map]
    have e2 : shape.getD i 0 = (X'.factors[i]).dim 1 := by
      have : X'.shape.getD i 0 = (X'.factors[i]).dim 1 := by
        rw [Tucker.shape, List.getD_eq_getElem _ _ (by simpa using hi), List.getElem_map]
      rw [← this, h3, List.getD_eq_getElem?_getD, List.getD_eq_getElem?_getD, List.getElem?_take, if_pos]
      have : X'.shape.length = X'.factors.length := by simp [Tucker.shape]
      rw [h3, List.length_take] at this
      omega
    have := (h6 i (by simpa [Tucker.shape] using hi)).1 s (by rw [e1]; exact hs) t (by rw [e1]; exact ht)
    rwa [e2, List.getD_eq_getElem _ _ hi] at this

/-- The hypotheses can be met: `(2, 3, 4)` with rank `(5, 2, 2)`; and the shorter sequence `(5, 2)` loses a mode. -/
example (seed : ℕ) : (∃ X, Tucker.random env8 [2, 3, 4] (.seq [5, 2, 2]) seed = .ok X ∧ X.shape = [2, 3, 4] ∧
    X.rank = [2, 2, 2] ∧ normSq X.toNumpy = normSq X.core) ∧
    ∃ X, Tucker.random env8 [2, 3, 4] (.seq [5, 2]) seed = .ok X ∧ X.shape = [2, 3] := by
  have hQ : QRContract env8 := qrChoice_contract rfl
  obtain ⟨X, h1, -, h3, h4, -⟩ := C65_tucker env8 hQ [2, 3, 4] (.seq [5, 2, 2]) seed (by simp) (by simp [tuckerAsked])
  obtain ⟨Y, g1, g2, -⟩ := C65_tucker_short env8 hQ [2, 3, 4] [5, 2] seed (by simp) (by simp)
  exact ⟨⟨X, h1, h3, h4, C65_tucker_norm _ hQ _ _ _ _ h1⟩, Y, g1, g2⟩

/-- The contracts can be met, and the shared generator shows for shape `(2, 2)` and rank `(2, 2)`. -/
example : ChoiceContract (fun _ _ k => List.range k) ∧
    (∃ X, Sparse.random env8 (fun _ _ k => List.range k) 0 [2, 3] 4 none = .ok X ∧ X.nnz = 4 ∧ X.Distinct) ∧
    StatePrefix env8 ∧ ∃ X, Tucker.random env8 [2, 2] (.int 2) 3 = .ok X ∧ X.rank.prod = X.rank.getD 0 0 * 2 := by
  have hc : ChoiceContract (fun _ _ k => List.range k) :=
    fun s n k h => ⟨by simp, List.nodup_range, fun f hf => by rw [List.mem_range] at hf; omega⟩
  refine ⟨hc, ?_, fun _ _ _ => rfl, ?_⟩
  · obtain ⟨X, h1, -, h3, -, h5, -⟩ := (C65_sparse env8 _ hc 0 [2, 3] 4 none).1 (by simp) (by simp) (by simp)
    exact ⟨X, h1, h3, h5⟩
  · obtain ⟨X, h1, -, -, h4, -⟩ := C65_tucker env8 (qrChoice_contract rfl) [2, 2] (.int 2) 3 (by simp) (by simp [tuckerAsked])
    exact ⟨X, h1, by rw [h4]; rfl⟩

end TTS.Props
