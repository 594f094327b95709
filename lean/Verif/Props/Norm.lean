import Verif.Proofs.OrthTT
import Verif.Proofs.SVD
import Verif.Proofs.TensorDot
import Verif.Proofs.TensorAdd
import Verif.Proofs.TensorOps
import Verif.Spec.Ranks
import Verif.Props.Tensor

/-!
# C12, C13, C18: left-orthogonalisation, norms and errors
-/

namespace TTS.Props

open Finset TTS.Spec

/-- **C18.** For a tensor train with positive mode sizes and ranks, `orthogonalize` succeeds; the result is a tensor
train of the same shape denoting the same tensor, all its cores but the last are left-orthogonal, its ranks are
`r'_k = min (r'_{k-1} n_k) r_k`, and no rank is larger than before. -/
theorem C18 {la : LinAlg} (hq : la.QROk) {X : TT ℝ} (hX : X.Valid) (hp : X.Pos) :
    ∃ O, X.orthogonalize la = .ok O ∧ O.Valid ∧ O.shape = X.shape ∧ O.toNumpy = X.toNumpy ∧
      (∀ C ∈ O.cores.dropLast, C.LeftOrthogonal) ∧ RanksLe O.rank X.rank ∧
      ∀ k < X.rank.length, O.rank.getD k 0 = min ((1 :: O.rank).getD k 0 * X.shape.getD k 0) (X.rank.getD k 0) := by
  obtain ⟨cores⟩ := X
  obtain ⟨hne, hch⟩ := hX
  match cores, hne, hch with
  | C :: Cs, _, ⟨n, t, hC, hCs⟩ =>
  obtain ⟨p1, p2⟩ := hp
  have hn : 0 < n := p1 n (by simp [TT.shape, (dim_of_shape3 hC).2.1])
  obtain ⟨Os, o1, o2, o3, o4, o5, o6, o7⟩ := orthLoop_spec hq Cs C 1 n t 1 hC hCs one_pos hn
    (fun D hD => ⟨p2 _ (List.mem_map.2 ⟨D, hD, rfl⟩), p1 _ (List.mem_map.2 ⟨D, List.mem_cons_of_mem _ hD, rfl⟩)⟩)
  have hOv : (TT.mk Os).Valid := ⟨by intro h; rw [show Os = [] from h] at o5; simp at o5, o2⟩
  have hXv : (TT.mk (C :: Cs)).Valid := ⟨by simp, n, t, hC, hCs⟩
  have hsh : (TT.mk Os).shape = (TT.mk (C :: Cs)).shape := o3
  have rk : ∀ (l : List (ND ℝ)) (k : ℕ), k + 1 < l.length → (TT.mk l).rank.getD k 0 = bondOf l (k + 1) := by
    intro l k hk
    unfold TT.rank bondOf
    rw [getD_map_lt _ _ k (by simp; omega) (ND.zeros []), List.getD_eq_getElem?_getD, List.getElem?_tail,
      ← List.getD_eq_getElem?_getD]
  have rl : ∀ l : List (ND ℝ), (TT.mk l).rank.length = l.length - 1 := fun l => by simp [TT.rank]
  have b0 : bondOf Os 0 = 1 := by
    match Os, o2 with
    | [], _ => simp at o5
    | O :: Os, ⟨_, _, hO, _⟩ => exact (dim_of_shape3 hO).1
  have hmin : ∀ k < (TT.mk (C :: Cs)).rank.length, (TT.mk Os).rank.getD k 0
      = min ((1 :: (TT.mk Os).rank).getD k 0 * (TT.mk (C :: Cs)).shape.getD k 0)
        ((TT.mk (C :: Cs)).rank.getD k 0) := by
    intro k hk
    rw [rl] at hk
    have hk : k < Cs.length := by simpa using hk
    rw [rk _ _ (by omega), rk _ _ (by simpa using hk), o7 k hk]
    have : (1 :: (TT.mk Os).rank).getD k 0 = bondOf Os k := by
      cases k with
      | zero => rw [b0]; rfl
      | succ k => rw [List.getD_cons_succ, rk _ _ (by omega)]
    rw [this]; rfl
  refine ⟨⟨Os⟩, by unfold TT.orthogonalize; rw [o1]; rfl, hOv, hsh, ?_, o4, ⟨?_, ?_⟩, hmin⟩
  · refine ND.ext' (by rw [TT.toNumpy_shape hOv, TT.toNumpy_shape hXv, hsh]) fun i _ => ?_
    rw [TT.toNumpy_get hOv, TT.toNumpy_get hXv]
    exact o6 i 0 one_pos 0 one_pos
  · rw [rl, rl, o5]; simp
  · intro k hk
    rw [hmin k (by rw [rl] at hk ⊢; rw [o5] at hk; simpa using hk)]
    exact min_le_right _ _

/-- a `2 × 3 × 2` tensor train of rank `(2, 2)` -/
def x9 : TT ℝ := ⟨[ND.ofFn [1, 2, 2] fun i => i.getD 1 0 + i.getD 2 0, ND.ofFn [2, 3, 2] fun i => i.getD 1 0 + 1,
  ND.ofFn [2, 2, 1] fun i => i.getD 0 0 + 2]⟩
theorem x9_valid : x9.Valid := ⟨by simp [x9], 2, 2, rfl, 3, 2, rfl, 2, 1, rfl, rfl⟩
theorem x9_pos : x9.Pos := by simp [TT.Pos, x9, TT.shape, TT.rank, ND.dim]

example : laChoice.QROk ∧ x9.Valid ∧ x9.Pos := ⟨laChoice_qr, x9_valid, x9_pos⟩

theorem orthLoop_empty (la : LinAlg) (C D : ND ℝ) (Ds : List (ND ℝ)) (h : C.dim 0 * C.dim 1 = 0) :
    TT.orthLoop la none (C :: D :: Ds) = .error .valueError := by
  rw [TT.orthLoop]; unfold ND.reshapeInfer; rw [if_pos h]

/-- **C18, empty bonds.** With a zero rank in the interior numpy cannot infer the shape of the next core:
`orthogonalize` (and hence `norm`, `round` and `error`) raises `ValueError` for the zero train of rank `(0, 0)`. -/
theorem C18_zero_rank {la : LinAlg} (hq : la.QROk) (Y : TT ℝ)
    (hY : TT.zero [2, 2, 2] (.int 0) = .ok Y) : Y.orthogonalize la = .error .valueError := by
  injection hY with hY
  subst hY
  obtain ⟨q1, -, -, -⟩ := hq ((ND.zeros [1, 2, 0] : ND ℝ).reshape [2, 0]) 2 0 rfl
  obtain ⟨-, q2, -, -⟩ := hq ((ND.zeros [1, 2, 0] : ND ℝ).reshape [2, 0]) 2 0 rfl
  show (TT.orthLoop la none [ND.zeros [1, 2, 0], ND.zeros [0, 2, 0], ND.zeros [0, 2, 1]]).map TT.mk = _
  have e : TT.orthLoop la none [ND.zeros [1, 2, 0], ND.zeros [0, 2, 0], ND.zeros [0, 2, 1]]
      = .error .valueError := by
    rw [TT.orthLoop]
    have h1 : ND.reshapeInfer (la.qr ((ND.zeros [1, 2, 0] : ND ℝ).reshape [2, 0])).1 1 2
        = .ok ((la.qr ((ND.zeros [1, 2, 0] : ND ℝ).reshape [2, 0])).1.reshape [1, 2, 0]) := by
      have : (la.qr ((ND.zeros [1, 2, 0] : ND ℝ).reshape [2, 0])).1.size = 0 := by rw [ND.size, q1]; rfl
      unfold ND.reshapeInfer
      rw [this]; rfl
    show (match ND.reshapeInfer (la.qr ((ND.zeros [1, 2, 0] : ND ℝ).reshape [2, 0])).1 1 2 with
      | .error e => _ | .ok Q => _) = _
    rw [h1]
    dsimp only
    rw [orthLoop_some]
    have h2 : (ND.es_ij_jkl_ikl (la.qr ((ND.zeros [1, 2, 0] : ND ℝ).reshape [2, 0])).2
        (ND.zeros [0, 2, 0])).shape = [0, 2, 0] := ND.es_ij_jkl_ikl_shape q2 (nj' := 0) rfl
    rw [show TT.orthLoop la none [_, _] = _ from orthLoop_empty la _ _ []
      (by
        have h3 := (dim_of_shape3 h2).1
        exact Nat.mul_eq_zero.2 (Or.inl h3))]
  rw [e]; rfl

/-! ### norms -/

theorem normSq_inner (A : ND ℝ) : normSq A = innerND A A := by
  unfold normSq innerND; exact sumIdx_congr fun i _ => sq _

theorem sumIdx_nonneg {s : List ℕ} {f : List ℕ → ℝ} (h : ∀ i, 0 ≤ f i) : 0 ≤ sumIdx s f := by
  induction s generalizing f with
  | nil => exact h _
  | cons n s ih => exact sum_nonneg fun i _ => ih fun p => h _

theorem normSq_nonneg (A : ND ℝ) : 0 ≤ normSq A := sumIdx_nonneg fun _ => sq_nonneg _

/-- Norm of a train whose cores but the last are left-orthogonal. -/
theorem orth_norm {O : TT ℝ} (hO : O.Valid) (ho : ∀ C ∈ O.cores.dropLast, C.LeftOrthogonal) :
    normSq (O.cores.getLastD (ND.zeros [])) = normSq O.toNumpy := by
  obtain ⟨hne, hch⟩ := hO
  obtain ⟨u, n, h1, h2⟩ := chain_last hch hne
  have hsplit : O.cores = O.cores.dropLast ++ [O.cores.getLast hne] := (List.dropLast_append_getLast hne).symm
  have hl : O.cores.getLastD (ND.zeros []) = O.cores.getLast hne := by
    rw [List.getLastD_eq_getLast?, List.getLast?_eq_getLast_of_ne_nil hne]; rfl
  rw [hl]
  generalize O.cores.getLast hne = C at *
  generalize O.cores.dropLast = As at *
  have hv : O.Valid := ⟨hne, hch⟩
  unfold normSq
  rw [TT.toNumpy_shape hv, h2]
  have hsh : O.shape = coreShape As ++ [n] := by
    unfold TT.shape; rw [hsplit]; simp [coreShape, (dim_of_shape3 h2).2.1]
  rw [hsh, sumIdx_append]
  have e : ∀ p, InR (coreShape As) p → sumIdx [n] (fun q => O.toNumpy.get (p ++ q) ^ 2)
      = ∑ i ∈ range n, (∑ x ∈ range u, ttVal As p 0 x * C.get [x, i, 0]) ^ 2 := by
    intro p hp
    show ∑ i ∈ range n, O.toNumpy.get (p ++ [i]) ^ 2 = _
    refine sum_congr rfl fun i _ => ?_
    rw [TT.toNumpy_get hv, ttEntry, hsplit, ttVal_concat h1 h2 p (by rw [hp.length, coreShape_length]) i 0 0 one_pos]
  rw [sumIdx_congr e, sumIdx_sum]
  have e2 : ∀ i ∈ range n, sumIdx (coreShape As) (fun p => (∑ x ∈ range u, ttVal As p 0 x * C.get [x, i, 0]) ^ 2)
      = ∑ x ∈ range u, C.get [x, i, 0] ^ 2 := by
    intro i _
    have := ttVal_isometry h1 ho (fun x => C.get [x, i, 0]) (fun x => C.get [x, i, 0])
    simp only [← sq] at this
    exact this
  rw [sum_congr rfl e2, sum_comm]
  show ∑ x ∈ range u, ∑ i ∈ range n, ∑ z ∈ range 1, C.get [x, i, z] ^ 2 = _
  exact sum_congr rfl fun x _ => sum_congr rfl fun i _ => by rw [sum_range_one]

/-- **C12 for tensor trains.** -/
theorem C12_tt {la : LinAlg} (hq : la.QROk) {X : TT ℝ} (hX : X.Valid) (hp : X.Pos) :
    X.norm la = .ok (√ (normSq X.toNumpy)) := by
  obtain ⟨O, o1, o2, -, o4, o5, -⟩ := C18 hq hX hp
  unfold TT.norm
  rw [o1, ← o4, ← orth_norm o2 o5]; rfl

/-- Tensor trains among the arguments have positive sizes and ranks. -/
def PosTT : Tensor ℝ → Prop
  | .leaf (.tt X) => X.Pos
  | _ => True

/-- **C12.** `X.norm()` is the Frobenius norm of `X.to_numpy()`, for every format. -/
theorem C12 {la : LinAlg} (hq : la.QROk) (X : Tensor ℝ) (hX : X.Valid) (hd : X.Distinct) (hp : PosTT X) :
    X.norm la = .ok (√ (normSq X.toNumpy)) := by
  have base : √ |X.dot X| = √ (normSq X.toNumpy) := by
    rw [Tensor.dot_eq hX hX hd hd rfl, ← normSq_inner, abs_of_nonneg (normSq_nonneg _)]
  match X, hX, hd, hp, base with
  | .leaf (.tt X), hX, _, hp, _ => exact C12_tt hq hX hp
  | .leaf (.sparse X), hX, hd, _, _ =>
    show Except.ok (√ _) = Except.ok (√ (normSq X.toNumpy))
    rw [normSq_inner, sparse_inner hX hd]
    congr 3
    refine List.map_congr_left fun e he => ?_
    rw [Sparse.toNumpy_get hX hd, sq]
    congr 1
    have hnd : (X.entries.map Prod.fst).Nodup := hd
    unfold sparseEntry
    have : ∀ l : List (List ℕ × ℝ), (l.map Prod.fst).Nodup → e ∈ l →
        (l.map fun e' => if e'.1 = e.1 then e'.2 else 0).sum = e.2 := by
      intro l
      induction l with
      | nil => intro _ h; simp at h
      | cons a l ih =>
        intro hn he
        rw [List.map_cons, List.nodup_cons] at hn
        rw [List.map_cons, List.sum_cons]
        rcases List.mem_cons.1 he with rfl | he
        · rw [if_pos rfl]
          have : (l.map fun e' => if e'.1 = e.1 then e'.2 else 0).sum = 0 := by
            apply List.sum_eq_zero
            intro x hx
            obtain ⟨e', he', rfl⟩ := List.mem_map.1 hx
            rw [if_neg]
            intro h
            exact hn.1 (h ▸ List.mem_map.2 ⟨e', he', rfl⟩)
          rw [this, add_zero]
        · rw [if_neg, zero_add, ih hn.2 he]
          intro h
          exact hn.1 (h ▸ List.mem_map.2 ⟨e, he, rfl⟩)
    exact (this _ hnd he).symm
  | .leaf (.dense X), _, _, _, base => exact congrArg Except.ok base
  | .leaf (.cp X), _, _, _, base => exact congrArg Except.ok base
  | .leaf (.tucker X), _, _, _, base => exact congrArg Except.ok base
  | .sum X, _, _, _, base => exact congrArg Except.ok base

example : (Tensor.leaf (.tt x9)).Valid ∧ (Tensor.leaf (.tt x9)).Distinct ∧ PosTT (.leaf (.tt x9)) :=
  ⟨x9_valid, trivial, x9_pos⟩

/-- **C12, repeated indices.** A sparse tensor storing an index twice has a norm that is not the norm of its dense
form. -/
theorem C12_duplicates (la : LinAlg) :
    let X : Sparse ℝ := ⟨[1], [([0], 3), ([0], 4)]⟩
    Tensor.norm la (.leaf (.sparse X)) = .ok 5 ∧ √ (normSq X.toNumpy) = 4 := by
  refine ⟨?_, ?_⟩
  · show Except.ok (√ ([(3 : ℝ) ^ 2, 4 ^ 2].sum)) = _
    rw [show ([(3 : ℝ) ^ 2, 4 ^ 2].sum) = 5 ^ 2 by norm_num, Real.sqrt_sq (by norm_num)]
  · have : normSq (Sparse.toNumpy (⟨[1], [([0], 3), ([0], 4)]⟩ : Sparse ℝ)) = 4 ^ 2 := by
      simp [normSq, Sparse.toNumpy, ND.setEntry, sumIdx, ND.ofFn_get']
    rw [this, Real.sqrt_sq (by norm_num)]

/-! ### errors -/

theorem distSq_nonneg (A B : ND ℝ) : 0 ≤ distSq A B := sumIdx_nonneg fun _ => sq_nonneg _

theorem sumIdx_smul_sub (s : List ℕ) (f g h : List ℕ → ℝ) :
    sumIdx s (fun i => f i + g i - 2 * h i) = sumIdx s f + sumIdx s g - 2 * sumIdx s h := by
  have e : ∀ i, f i + g i - 2 * h i = f i + g i + (-2) * h i := fun i => by ring
  simp only [e]
  rw [sumIdx_add, sumIdx_add, ← mul_sumIdx]; ring

theorem distSq_expand {A B : ND ℝ} (h : A.shape = B.shape) :
    distSq A B = normSq A + normSq B - 2 * innerND A B := by
  unfold distSq normSq innerND
  rw [← h, ← sumIdx_smul_sub]
  exact sumIdx_congr fun i _ => by ring

theorem frob_sub (A B : ND ℝ) : (A.sub B).frob = √ (distSq A B) := by
  unfold ND.frob distSq
  congr 1
  exact sumIdx_congr fun i hi => by rw [ND.sub, ND.ofFn_get (show InR A.shape i from hi)]

open Classical in
/-- What `X.error(Y, relative, rmse)` should return for dense forms `A` and `B`. -/
noncomputable def errorSpec (A B : ND ℝ) (relative rmse : Bool) : PyFloat :=
  if relative = true ∧ √ (normSq B) = 0 then .inf
  else .val (√ (distSq A B) / (if relative then √ (normSq B) else 1) / (if rmse then √ (A.shape.prod : ℝ) else 1))

theorem errorOpts_value {sh : List ℕ} {a : ℝ} (b : ℝ) (relative rmse : Bool) (hr : rmse = true → 0 < sh.prod) :
    errorOpts sh relative rmse b (.val a) = if relative = true ∧ b = 0 then .inf
      else .val (a / (if relative then b else 1) / (if rmse then √ (sh.prod : ℝ) else 1)) := by
  unfold errorOpts
  by_cases h : relative = true ∧ b = 0
  · rw [if_pos h, if_pos h]
  · rw [if_neg h, if_neg h]
    have hp : rmse = true → √ (sh.prod : ℝ) ≠ 0 := by
      intro h'
      have := hr h'
      rw [Real.sqrt_ne_zero']
      exact_mod_cast this
    generalize √ (sh.prod : ℝ) = w at hp ⊢
    cases relative with
    | false =>
      cases rmse with
      | false => simp
      | true => simp [PyFloat.div, hp rfl]
    | true =>
      have hB : ¬ b = 0 := fun h' => h ⟨rfl, h'⟩
      cases rmse with
      | false => simp [PyFloat.div, hB]
      | true => simp [PyFloat.div, hp rfl, hB]

theorem errorOpts_spec {A B : ND ℝ} {sh : List ℕ} (hs : A.shape = sh) (relative rmse : Bool)
    (hr : rmse = true → 0 < sh.prod) :
    errorOpts sh relative rmse (√ (normSq B)) (.val (√ (distSq A B))) = errorSpec A B relative rmse := by
  rw [errorOpts_value _ relative rmse hr]
  unfold errorSpec
  rw [hs]

theorem fastError_spec {a b d : ℝ} (h : a ^ 2 + b ^ 2 ≠ 0) (hnn : 0 ≤ a ^ 2 + b ^ 2 - 2 * d) :
    fastError a b d = .val (√ (a ^ 2 + b ^ 2 - 2 * d)) := by
  unfold fastError
  have hpos : 0 < a ^ 2 + b ^ 2 := lt_of_le_of_ne (by positivity) (Ne.symm h)
  simp only [PyFloat.div, if_neg h]
  congr 1
  rw [← Real.sqrt_mul hpos.le, show (1 - 2 * d / (a ^ 2 + b ^ 2)) = (a ^ 2 + b ^ 2 - 2 * d) / (a ^ 2 + b ^ 2) by
    field_simp, abs_of_nonneg (div_nonneg hnn hpos.le)]
  congr 1
  field_simp

/-- `error` of the base class. -/
theorem errorBase_spec {la : LinAlg} (hq : la.QROk) (X Y : Tensor ℝ) (hX : X.Valid) (hY : Y.Valid)
    (dX : X.Distinct) (dY : Y.Distinct) (pX : PosTT X) (pY : PosTT Y) (hs : X.shape = Y.shape)
    (relative rmse fast : Bool) (hr : rmse = true → 0 < X.shape.prod)
    (hf : fast = true → normSq X.toNumpy + normSq Y.toNumpy ≠ 0) :
    X.errorBase la Y relative rmse fast = .ok (errorSpec X.toNumpy Y.toNumpy relative rmse) := by
  unfold Tensor.errorBase
  have hXs := Tensor.toNumpy_shape hX
  have hYs := Tensor.toNumpy_shape hY
  rw [C12 hq Y hY dY pY, C12 hq X hX dX pX]
  dsimp only
  cases fast with
  | false =>
    show Except.ok (errorOpts _ _ _ _ (.val (X.toNumpy.sub Y.toNumpy).frob)) = _
    rw [frob_sub, errorOpts_spec hXs relative rmse hr]
  | true =>
    show Except.ok (errorOpts _ _ _ _ (fastError _ _ _)) = _
    have e : X.toNumpy.shape = Y.toNumpy.shape := by rw [hXs, hYs, hs]
    have hd := distSq_expand e
    rw [fastError_spec, Real.sq_sqrt (normSq_nonneg _), Real.sq_sqrt (normSq_nonneg _),
      Tensor.dot_eq hX hY dX dY hs, ← hd, errorOpts_spec hXs relative rmse hr]
    · rw [Real.sq_sqrt (normSq_nonneg _), Real.sq_sqrt (normSq_nonneg _)]; exact hf rfl
    · rw [Real.sq_sqrt (normSq_nonneg _), Real.sq_sqrt (normSq_nonneg _), Tensor.dot_eq hX hY dX dY hs, ← hd]
      exact distSq_nonneg _ _

/-- Both arguments are tensor trains. -/
def BothTT : Tensor ℝ → Tensor ℝ → Prop
  | .leaf (.tt _), .leaf (.tt _) => True
  | _, _ => False

theorem TT.pos_add {X Y : TT ℝ} (hX : X.Valid) (hY : Y.Valid) (hs : X.shape = Y.shape)
    (hd : 2 ≤ X.shape.length) (pX : X.Pos) : (X.add Y).Pos := by
  obtain ⟨-, h2, h3, -⟩ := TT.add_spec hX hY hs hd
  refine ⟨by rw [h2]; exact pX.1, fun r hr => ?_⟩
  rw [h3] at hr
  obtain ⟨k, hk, rfl⟩ := List.mem_iff_getElem.1 hr
  rw [List.getElem_zipWith]
  have hk' : k < X.rank.length := by rw [List.length_zipWith] at hk; omega
  have := pX.2 _ (List.getElem_mem hk')
  omega

/-- **C13.** `X.error(Y)` is the Frobenius norm of the difference of the dense forms; with `relative` it is divided by
the norm of `Y` and infinite when that is zero, with `rmse` it is divided by the square root of the number of entries.
This holds for every pair of formats and every combination of flags, also for the `fast` formula and the one used
between two tensor trains, provided that two tensor trains have at least two modes, that `rmse` is not asked for an
empty tensor, and that `fast` is not used between two zero tensors. -/
theorem C13 {la : LinAlg} (hq : la.QROk) (X Y : Tensor ℝ) (hX : X.Valid) (hY : Y.Valid)
    (dX : X.Distinct) (dY : Y.Distinct) (pX : PosTT X) (pY : PosTT Y) (hs : X.shape = Y.shape)
    (hd : BothTT X Y → 2 ≤ X.shape.length)
    (relative rmse fast : Bool) (hr : rmse = true → 0 < X.shape.prod)
    (hf : fast = true → normSq X.toNumpy + normSq Y.toNumpy ≠ 0) :
    X.error la Y relative rmse fast = .ok (errorSpec X.toNumpy Y.toNumpy relative rmse) := by
  have base := errorBase_spec hq X Y hX hY dX dY pX pY hs relative rmse fast hr hf
  have main : ∀ A B : TT ℝ, X = .leaf (.tt A) → Y = .leaf (.tt B) →
      A.error la B relative rmse = .ok (errorSpec A.toNumpy B.toNumpy relative rmse) := by
    rintro A B rfl rfl
    have hA : A.Valid := hX
    have hB : B.Valid := hY
    have hs : A.shape = B.shape := hs
    have hd : 2 ≤ A.shape.length := hd trivial
    have hnB : (B.mul (-1)).Valid := Leaf.mul_valid (X := .tt B) hB (-1)
    have hnBs : (B.mul (-1)).shape = B.shape := Leaf.mul_shape (X := .tt B) hB (-1)
    obtain ⟨a1, a2, a3, a4⟩ := TT.add_spec hA hnB (hs.trans hnBs.symm) hd
    have ap := TT.pos_add hA hnB (hs.trans hnBs.symm) hd pX
    have hAs := TT.toNumpy_shape hA
    have key : normSq (A.add (B.mul (-1))).toNumpy = distSq A.toNumpy B.toNumpy := by
      unfold normSq distSq
      rw [TT.toNumpy_shape a1, a2, hAs]
      refine sumIdx_congr fun i _ => ?_
      rw [TT.toNumpy_get a1, a4, ← TT.toNumpy_get hA, ← TT.toNumpy_get hnB,
        show (B.mul (-1)).toNumpy.get i = B.toNumpy.get i * (-1) from Leaf.mul_get (X := .tt B) hB (-1) i]
      ring
    unfold TT.error
    rw [C12_tt hq a1 ap, C12_tt hq hB pY, key]
    dsimp only
    cases relative with
    | true =>
      rw [if_pos rfl]
      exact congrArg Except.ok (errorOpts_spec hAs true rmse hr)
    | false =>
      rw [if_neg (by decide)]
      have := errorOpts_spec (B := B.toNumpy) hAs false rmse hr
      rw [← this]
      congr 1
  match X, Y, base, main with
  | .leaf (.tt A), .leaf (.tt B), _, main => exact main A B rfl rfl
  | .leaf (.tt A), .leaf (.dense B), base, _ => exact base
  | .leaf (.tt A), .leaf (.sparse B), base, _ => exact base
  | .leaf (.tt A), .leaf (.cp B), base, _ => exact base
  | .leaf (.tt A), .leaf (.tucker B), base, _ => exact base
  | .leaf (.tt A), .sum B, base, _ => exact base
  | .leaf (.dense A), _, base, _ => exact base
  | .leaf (.sparse A), _, base, _ => exact base
  | .leaf (.cp A), _, base, _ => exact base
  | .leaf (.tucker A), _, base, _ => exact base
  | .sum A, _, base, _ => exact base

/-- a dense tensor of the shape of `x9` -/
def y9 : ND ℝ := ND.ofFn [2, 3, 2] fun i => i.getD 2 0 + 1

example : (Tensor.leaf (.tt x9)).Valid ∧ (Tensor.leaf (.dense y9)).Valid ∧ PosTT (.leaf (.tt x9)) ∧
    (Tensor.leaf (.tt x9)).shape = (Tensor.leaf (.dense y9)).shape ∧ 0 < (Tensor.leaf (.tt x9)).shape.prod ∧
    (2 ≤ (Tensor.leaf (.tt x9)).shape.length) :=
  ⟨x9_valid, trivial, x9_pos, rfl, by simp [Tensor.shape, Leaf.shape, TT.shape, x9, ND.dim],
    by simp [Tensor.shape, Leaf.shape, TT.shape, x9]⟩

/-- **C13 fails for the fast formula between zero tensors**: the result is `nan`, not `0`. -/
theorem C13_fast_zero {la : LinAlg} (n : ℕ) :
    let X : Tensor ℝ := .leaf (.dense (ND.zeros [n]))
    X.error la X false false true = .ok .nan := by
  have hn : Tensor.norm la (.leaf (.dense (ND.zeros [n]))) = .ok 0 := by
    show Except.ok (√ |Tensor.dot _ _|) = _
    rw [Tensor.dot_eq (X := .leaf (.dense (ND.zeros [n]))) (Y := .leaf (.dense (ND.zeros [n]))) trivial trivial trivial trivial rfl]
    have : innerND (ND.zeros [n] : ND ℝ) (ND.zeros [n]) = 0 := by
      unfold innerND; exact sumIdx_eq_zero fun i _ => by simp
    show Except.ok (√ |innerND (ND.zeros [n] : ND ℝ) (ND.zeros [n])|) = _
    rw [this]; simp
  show Tensor.errorBase la (.leaf (.dense (ND.zeros [n]))) (.leaf (.dense (ND.zeros [n]))) false false true = _
  unfold Tensor.errorBase
  rw [hn]
  show Except.ok (errorOpts _ _ _ _ (fastError 0 0 _)) = _
  have hd : Tensor.dot (.leaf (.dense (ND.zeros [n] : ND ℝ))) (.leaf (.dense (ND.zeros [n]))) = 0 := by
    rw [Tensor.dot_eq (X := .leaf (.dense (ND.zeros [n]))) (Y := .leaf (.dense (ND.zeros [n]))) trivial trivial trivial trivial rfl]
    show innerND (ND.zeros [n] : ND ℝ) (ND.zeros [n]) = 0
    unfold innerND; exact sumIdx_eq_zero fun i _ => by simp
  rw [hd]
  simp [fastError, PyFloat.div, errorOpts]

/-- **C13 fails for tensor trains with one mode**: the error of the train with the single entry `1` to itself is `2`. -/
theorem C13_one_mode {la : LinAlg} (hq : la.QROk) :
    let X : TT ℝ := ⟨[ND.ofFn [1, 1, 1] fun _ => 1]⟩
    X.error la X false false = .ok (.val 2) := by
  intro X
  let Z : TT ℝ := X.add (X.mul (-1))
  have hZv : Z.Valid := ⟨by simp [Z, TT.add], 1, 2, rfl, 1, 1, rfl, rfl⟩
  have hZp : Z.Pos := by
    constructor
    · intro n hn
      have : n = 1 ∨ n = 1 := by simpa [Z, TT.add, TT.shape, X, ND.concat2, ND.concat0, ND.dim, TT.mul] using hn
      omega
    · intro n hn
      have : n = 2 := by simpa [Z, TT.add, TT.rank, X, ND.concat2, ND.concat0, ND.dim, TT.mul] using hn
      omega
  have hZn : normSq Z.toNumpy = 2 ^ 2 := by
    unfold normSq
    rw [TT.toNumpy_shape hZv]
    have hsh : Z.shape = [1, 1] := by simp [Z, TT.add, TT.shape, X, ND.concat2, ND.concat0, ND.dim, TT.mul]
    rw [hsh]
    show ∑ i ∈ range 1, ∑ j ∈ range 1, Z.toNumpy.get [i, j] ^ 2 = _
    rw [sum_range_one, sum_range_one, TT.toNumpy_get hZv]
    congr 1
    simp [ttEntry, ttVal, Z, TT.add, X, TT.mul, ND.concat2, ND.concat0, ND.dim, sum_range_succ, ND.ofFn_get',
      ND.smul]
    norm_num
  have h1 := C12_tt hq hZv hZp
  rw [hZn, Real.sqrt_sq (by norm_num)] at h1
  unfold TT.error
  rw [show X.add (X.mul (-1)) = Z from rfl, h1]
  simp [errorOpts]

end TTS.Props
