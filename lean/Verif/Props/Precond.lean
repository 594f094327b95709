import Verif.Proofs.Precond
import Verif.Proofs.SVD
import Verif.Props.Lossless
import Verif.Props.Norm

/-!
# C53: preconditioners
-/

namespace TTS.Props

open Finset Spec

theorem map_set_same {α β : Type*} (f : α → β) : ∀ (l : List α) (k : ℕ) (a b : α), l[k]? = some a → f b = f a →
    (l.set k b).map f = l.map f
  | [], _, _, _, h, _ => by simp at h
  | x :: l, 0, a, b, h, e => by
    have : x = a := by simpa using h
    subst this
    simp [e]
  | x :: l, k + 1, a, b, h, e => by
    simp only [List.set_cons_succ, List.map_cons]
    rw [map_set_same f l k a b (by simpa using h) e]

theorem chain_core {Cs : List (ND ℝ)} {r s mu : ℕ} {C : ND ℝ} (h : TTChain r Cs s) (hC : Cs[mu]? = some C) :
    ∃ a n b, C.shape = [a, n, b] := by
  induction Cs generalizing r mu with
  | nil => simp at hC
  | cons D Cs ih =>
    obtain ⟨n, t, hD, hCs⟩ := h
    cases mu with
    | zero => simp at hC; subst hC; exact ⟨_, _, _, hD⟩
    | succ k => exact ih hCs (by simpa using hC)

/-- One core replaced by its product with a matrix: what the whole train then denotes. -/
theorem mode_replaced {X : TT ℝ} (hX : X.Valid) {mu n : ℕ} {C C' : ND ℝ} (G : ℕ → ℕ → ℝ) (hC : X.cores[mu]? = some C)
    (hn : C.dim 1 = n) (hs : C'.shape = C.shape)
    (hg : ∀ x y z, x < C.dim 0 → y < n → z < C.dim 2 → C'.get [x, y, z] = ∑ t ∈ range n, G y t * C.get [x, t, z]) :
    (TT.mk (X.cores.set mu C')).Valid ∧ (TT.mk (X.cores.set mu C')).shape = X.shape ∧
    (TT.mk (X.cores.set mu C')).rank = X.rank ∧
    ∀ i, InR X.shape i → (TT.mk (X.cores.set mu C')).toNumpy.get i = modeMul G n mu X.toNumpy.get i := by
  obtain ⟨h1, h2, h3⟩ := ttVal_modeMul G n hX.2 hC hn hs hg
  have hv : (TT.mk (X.cores.set mu C')).Valid := ⟨by intro h; exact hX.1 (by simpa using h), h1⟩
  have hmu : mu < X.cores.length := by
    by_contra h
    rw [List.getElem?_eq_none (by omega)] at hC
    cases hC
  refine ⟨hv, h2, ?_, ?_⟩
  · have e := map_set_same (fun C : ND ℝ => C.dim 0) X.cores mu C C' hC (by simp [ND.dim, hs])
    simp only [TT.rank]
    rw [List.map_tail, List.map_tail, e]
  · intro i hi
    rw [TT.toNumpy_get hv]
    have hl : i.length = X.cores.length := by rw [hi.length]; simp [TT.shape]
    have him : i.getD mu 0 < n := by
      have := (ND.inR_iff_getD.1 hi).2 mu (by simpa [TT.shape] using hmu)
      have e : X.shape.getD mu 0 = n := by
        rw [TT.shape, List.getD_eq_getElem _ _ (by simpa using hmu), List.getElem_map, ← hn]
        rw [List.getElem?_eq_getElem hmu] at hC
        simp only [Option.some.injEq] at hC
        rw [hC]
      omega
    have := h3 i 0 0 hl one_pos him
    unfold modeMul
    refine this.trans (sum_congr rfl fun t _ => ?_)
    rw [TT.toNumpy_get hX]
    rfl

/-- The core a preconditioner acts on. -/
theorem mode_core {X : TT ℝ} (hX : X.Valid) {mu n : ℕ} (hmu : mu < X.shape.length) (hn : X.shape.getD mu 0 = n) :
    ∃ C a b, X.cores[mu]? = some C ∧ C.shape = [a, n, b] := by
  have hmu' : mu < X.cores.length := by simpa [TT.shape] using hmu
  obtain ⟨a, n', b, h⟩ := chain_core hX.2 (List.getElem?_eq_getElem hmu')
  refine ⟨_, a, b, List.getElem?_eq_getElem hmu', ?_⟩
  have e : X.shape.getD mu 0 = n' := by
    rw [TT.shape, List.getD_eq_getElem _ _ (by simpa using hmu'), List.getElem_map]
    simp [ND.dim, h]
  rw [h, ← hn, e]

theorem mode_core_pos {X : TT ℝ} (hX : X.Valid) (hp : X.Pos) {mode a n b : ℕ} {C : ND ℝ} (hm : mode < X.shape.length)
    (h1 : X.cores[mode]? = some C) (h2 : C.shape = [a, n, b]) : 0 < a * b := by
  have hd := dim_of_shape3 h2
  have hb := bonds_rank hX
  have hpos : ∀ r ∈ bonds X.rank, 0 < r := by
    intro r hr
    unfold bonds at hr
    simp only [List.cons_append, List.mem_cons, List.mem_append, List.not_mem_nil, or_false] at hr
    rcases hr with rfl | hr | rfl
    · exact one_pos
    · exact hp.2 r hr
    · exact one_pos
  have hml : mode < X.cores.length := by simpa [TT.shape] using hm
  have hC : X.cores[mode] = C := by
    rw [List.getElem?_eq_getElem hml] at h1; simpa using h1
  have ha : 0 < a := by
    apply hpos
    rw [hb]
    refine List.mem_append_left _ (List.mem_map.2 ⟨C, ?_, hd.1⟩)
    rw [← hC]; exact List.getElem_mem hml
  have hbp : 0 < b := by
    obtain ⟨s, c1, c2⟩ := TTChain.split (As := X.cores.take (mode + 1)) (Bs := X.cores.drop (mode + 1))
      (by rw [List.take_append_drop]; exact hX.2)
    have e : X.cores.take (mode + 1) = X.cores.take mode ++ [C] := by
      rw [← List.take_concat_get' _ _ hml, hC]
    rw [e] at c1
    obtain ⟨u, _, n', t, c4, c5⟩ := TTChain.split c1
    rw [h2] at c4
    simp only [List.cons.injEq, and_true] at c4
    cases c5
    rw [← c4.2.2] at c2
    cases hD : X.cores.drop (mode + 1) with
    | nil =>
      rw [hD] at c2
      have : b = 1 := c2
      omega
    | cons D Ds =>
      rw [hD] at c2
      obtain ⟨n2, t2, c6, _⟩ := c2
      apply hpos
      rw [hb]
      refine List.mem_append_left _ (List.mem_map.2 ⟨D, ?_, (dim_of_shape3 c6).1⟩)
      exact List.mem_of_mem_drop (i := mode + 1) (by rw [hD]; simp)
  exact Nat.mul_pos ha hbp

/-- **C53, forward.** `forward_call` multiplies the chosen mode by the matrix and nothing else. -/
theorem C53_forward (la : LinAlg2) (A : ND ℝ) (shape : List ℕ) (mode n : ℕ) (hA : A.shape = [n, n]) (X : TT ℝ)
    (hX : X.Valid) (hm : mode < X.shape.length) (hn : X.shape.getD mode 0 = n) :
    ∃ Y, (Precond.new la A shape mode).forward X = .ok Y ∧ Y.Valid ∧ Y.shape = X.shape ∧ Y.rank = X.rank ∧
      ∀ i, InR X.shape i → Y.toNumpy.get i = modeMul (fun i j => A.get [i, j]) n mode X.toNumpy.get i := by
  obtain ⟨C, a, b, h1, h2⟩ := mode_core hX hm hn
  have hd := dim_of_shape3 h2
  have hM := mat1_shape h2
  have hAM := ND.matmul_shape' hA hM
  refine ⟨⟨X.cores.set mode ((A.matmul (C.matricize [1] true)).dematricize 1 C.shape)⟩, ?_, ?_⟩
  · unfold Precond.forward Precond.new
    simp only [h1]
  · refine mode_replaced hX _ h1 hd.2.1 (by rw [h2, demat1_shape hAM]) ?_
    intro x y z hx hy hz
    rw [h2, demat1_get hAM y (by omega) (by omega), ND.matmul_get hA hM]
    exact sum_congr rfl fun t _ => by rw [mat1_get h2 t (by omega) (by omega)]

/-- **C53, backward.** For an invertible matrix, `backward_call` (which is also what calling the preconditioner does)
multiplies the chosen mode by the inverse matrix and nothing else. -/
theorem C53_backward (la : LinAlg2) (hq : la.QROk) (ht : la.SolveTriOk) (A : ND ℝ) (shape : List ℕ) (mode n : ℕ)
    (hA : A.shape = [n, n]) (hdet : (A.asMatrix n n).det ≠ 0) (X : TT ℝ) (hX : X.Valid) (hp : X.Pos)
    (hm : mode < X.shape.length) (hn : X.shape.getD mode 0 = n) :
    ∃ Y, (Precond.new la A shape mode).backward la X = .ok Y ∧
      (LinMap.precond (Precond.new la A shape mode)).call la X = .ok Y ∧
      Y.Valid ∧ Y.shape = X.shape ∧ Y.rank = X.rank ∧
      ∀ G, IsInv G A n → ∀ i, InR X.shape i → Y.toNumpy.get i = modeMul G n mode X.toNumpy.get i := by
  obtain ⟨C, a, b, h1, h2⟩ := mode_core hX hm hn
  have hd := dim_of_shape3 h2
  have hM := mat1_shape h2
  have hQR := hq A n n hA
  have hQs : (la.qr A).1.shape = [n, n] := by rw [hQR.shapeQ, min_self]
  have hRs : (la.qr A).2.shape = [n, n] := by rw [hQR.shapeR, min_self]
  have hQM := ND.matmul_shape' (ND.matT_shape hQs) hM
  have hab := mode_core_pos hX hp hm h1 h2
  obtain ⟨sol, s1, s2, s3⟩ := (ht (la.qr A).2 _ n (a * b) hRs hQM hab
    (fun t ht j hj => hQR.upper t (by rwa [min_self]) j hj)).1 ((qr_diag hQR).1.1 hdet)
  have hcall : (Precond.new la A shape mode).backward la X = .ok ⟨X.cores.set mode (sol.dematricize 1 C.shape)⟩ := by
    unfold Precond.backward Precond.new
    simp only [h1, s1]
  have hsol : ∀ G, IsInv G A n → ∀ x y z, x < C.dim 0 → y < n → z < C.dim 2 →
      (sol.dematricize 1 C.shape).get [x, y, z] = ∑ t ∈ range n, G y t * C.get [x, t, z] := by
    intro G hG x y z hx hy hz
    rw [h2, demat1_get s2 y (by omega) (by omega)]
    have hzz : x * b + z < a * b := (ND.lt_mul_iff (by omega)).2 (by omega)
    have := solve_unique hG (qr_solve hQR (fun t => sol.get [t, x * b + z]) (fun t => C.get [x, t, z]) ?_) y hy
    · exact this
    · intro i hi
      rw [s3 i hi _ hzz, ND.matmul_get (ND.matT_shape hQs) hM]
      refine sum_congr rfl fun s _ => ?_
      rw [ND.matT_get hQs, mat1_get h2 s (by omega) (by omega)]
  obtain ⟨G0, hG0, _⟩ := exists_inv hdet
  obtain ⟨r1, r2, r3, _⟩ := mode_replaced hX G0 h1 hd.2.1 (by rw [h2, demat1_shape s2]) (hsol G0 hG0)
  refine ⟨_, hcall, hcall, r1, r2, r3, ?_⟩
  intro G hG
  exact (mode_replaced hX G h1 hd.2.1 (by rw [h2, demat1_shape s2]) (hsol G hG)).2.2.2

theorem modeMul_modeMul {G A : ℕ → ℕ → ℝ} {n : ℕ}
    (h : ∀ i < n, ∀ j < n, ∑ t ∈ range n, G i t * A t j = if i = j then 1 else 0) {mu : ℕ} {f g : List ℕ → ℝ}
    {s : List ℕ} (hmu : mu < s.length) (hn : s.getD mu 0 = n)
    (hg : ∀ i, InR s i → g i = modeMul A n mu f i) {i : List ℕ} (hi : InR s i) : modeMul G n mu g i = f i := by
  have hl := hi.length
  have him : i.getD mu 0 < n := by have := (ND.inR_iff_getD.1 hi).2 mu hmu; omega
  have hset : ∀ t < n, InR s (i.set mu t) := by
    intro t ht
    rw [ND.inR_iff_getD]
    refine ⟨by simp [hl], fun k hk => ?_⟩
    by_cases hk' : k = mu
    · subst hk'
      rw [List.getD_eq_getElem _ _ (by simp; omega), List.getElem_set_self]
      omega
    · rw [List.getD_eq_getElem _ _ (by simp; omega), List.getElem_set_ne (by omega), ← List.getD_eq_getElem _ 0]
      exact (ND.inR_iff_getD.1 hi).2 k hk
  have e : ∀ t ∈ range n, G (i.getD mu 0) t * g (i.set mu t)
      = ∑ u ∈ range n, G (i.getD mu 0) t * A t u * f (i.set mu u) := by
    intro t ht
    have ht := mem_range.1 ht
    have e1 : (i.set mu t).getD mu 0 = t := by
      rw [List.getD_eq_getElem _ _ (by rw [List.length_set]; omega), List.getElem_set_self]
    rw [hg _ (hset t ht)]
    unfold modeMul
    rw [mul_sum, e1]
    refine sum_congr rfl fun u _ => ?_
    rw [List.set_set]; ring
  unfold modeMul
  rw [sum_congr rfl e, sum_comm]
  simp only [← sum_mul]
  rw [sum_eq_single (i.getD mu 0)]
  · rw [h _ him _ him, if_pos rfl, one_mul]
    congr 1
    rw [List.getD_eq_getElem _ _ (by omega)]
    exact List.set_getElem_self (by omega)
  · intro u hu hne
    rw [h _ him u (mem_range.1 hu), if_neg (Ne.symm hne), zero_mul]
  · intro h; exact absurd (mem_range.2 him) h

theorem pos_of_same {X Y : TT ℝ} (h : X.Pos) (hs : Y.shape = X.shape) (hr : Y.rank = X.rank) : Y.Pos :=
  ⟨by rw [hs]; exact h.1, by rw [hr]; exact h.2⟩

/-- **C53.** For an invertible matrix of the size of the chosen mode, `forward_call` undoes `backward_call` and
conversely: both compositions return a tensor train with the same entries as the input. -/
theorem C53 (la : LinAlg2) (hq : la.QROk) (ht : la.SolveTriOk) (A : ND ℝ) (shape : List ℕ) (mode n : ℕ)
    (hA : A.shape = [n, n]) (hdet : (A.asMatrix n n).det ≠ 0) (X : TT ℝ) (hX : X.Valid) (hp : X.Pos)
    (hm : mode < X.shape.length) (hn : X.shape.getD mode 0 = n) :
    let P := Precond.new la A shape mode
    (∃ Y Z, P.backward la X = .ok Y ∧ P.forward Y = .ok Z ∧ Z.toNumpy = X.toNumpy) ∧
    (∃ Y Z, P.forward X = .ok Y ∧ P.backward la Y = .ok Z ∧ Z.toNumpy = X.toNumpy) := by
  intro P
  obtain ⟨G, hG1, hG2⟩ := exists_inv hdet
  constructor
  · obtain ⟨Y, y1, _, y2, y3, y4, y5⟩ := C53_backward la hq ht A shape mode n hA hdet X hX hp hm hn
    obtain ⟨Z, z1, z2, z3, z4, z5⟩ := C53_forward la A shape mode n hA Y y2 (by rw [y3]; exact hm) (by rw [y3]; exact hn)
    refine ⟨Y, Z, y1, z1, ND.ext' (by rw [TT.toNumpy_shape z2, TT.toNumpy_shape hX, z3, y3]) fun i hi => ?_⟩
    rw [TT.toNumpy_shape z2, z3] at hi
    rw [z5 i hi]
    rw [y3] at hi
    exact modeMul_modeMul hG2 hm hn (y5 G hG1) hi
  · obtain ⟨Y, z1, z2, z3, z4, z5⟩ := C53_forward la A shape mode n hA X hX hm hn
    obtain ⟨Z, y1, _, y2, y3, y4, y5⟩ := C53_backward la hq ht A shape mode n hA hdet Y z2 (pos_of_same hp z3 z4)
      (by rw [z3]; exact hm) (by rw [z3]; exact hn)
    refine ⟨Y, Z, z1, y1, ND.ext' (by rw [TT.toNumpy_shape y2, TT.toNumpy_shape hX, y3, z3]) fun i hi => ?_⟩
    rw [TT.toNumpy_shape y2, y3] at hi
    rw [y5 G hG1 i hi]
    rw [z3] at hi
    exact modeMul_modeMul hG1 hm hn z5 hi

/-- **C53, singular matrices.** For a singular matrix `backward_call` raises `LinAlgError`. -/
theorem C53_singular (la : LinAlg2) (hq : la.QROk) (ht : la.SolveTriOk) (A : ND ℝ) (shape : List ℕ) (mode n : ℕ)
    (hA : A.shape = [n, n]) (hdet : (A.asMatrix n n).det = 0) (X : TT ℝ) (hX : X.Valid) (hp : X.Pos)
    (hm : mode < X.shape.length) (hn : X.shape.getD mode 0 = n) :
    (Precond.new la A shape mode).backward la X = .error .linAlgError := by
  obtain ⟨C, a, b, h1, h2⟩ := mode_core hX hm hn
  have hM := mat1_shape h2
  have hQR := hq A n n hA
  have hQs : (la.qr A).1.shape = [n, n] := by rw [hQR.shapeQ, min_self]
  have hRs : (la.qr A).2.shape = [n, n] := by rw [hQR.shapeR, min_self]
  have hQM := ND.matmul_shape' (ND.matT_shape hQs) hM
  have hz : ∃ i < n, (la.qr A).2.get [i, i] = 0 := by
    by_contra h
    push Not at h
    exact (qr_diag hQR).1.2 h hdet
  have := (ht (la.qr A).2 _ n (a * b) hRs hQM (mode_core_pos hX hp hm h1 h2)
    (fun t ht j hj => hQR.upper t (by rwa [min_self]) j hj)).2 hz
  unfold Precond.backward Precond.new
  simp only [h1, this]

/-- **C53, missing modes.** A mode the tensor train does not have is an `IndexError`. -/
theorem C53_mode (la : LinAlg2) (P : Precond) (X : TT ℝ) (hm : X.shape.length ≤ P.mode) :
    P.backward la X = .error .indexError ∧ P.forward X = .error .indexError := by
  have : X.cores[P.mode]? = none := List.getElem?_eq_none (by simpa [TT.shape] using hm)
  unfold Precond.backward Precond.forward
  simp only [this, and_self]

open Classical in
/-- A triangular solver meeting its contract (and a least squares routine, see `C57`). -/
noncomputable def solveTriChoice (R B : ND ℝ) : Except PyErr (ND ℝ) :=
  if h : ∃ G, IsInv G R (R.dim 0) then
    .ok (ND.ofFn [R.dim 0, B.dim 1] fun i => ∑ t ∈ range (R.dim 0), h.choose (i.getD 0 0) t * B.get [t, i.getD 1 0])
  else .error .linAlgError

theorem solveTriChoice_ok {la : LinAlg2} (h : la.solveTri = solveTriChoice) : la.SolveTriOk := by
  intro R B n k hR hB hk hu
  have d0 : R.dim 0 = n := by simp [ND.dim, hR]
  have d1 : B.dim 1 = k := by simp [ND.dim, hB]
  have hdet : (R.asMatrix n n).det = ∏ i : Fin n, R.get [i, i] :=
    Matrix.det_of_isUpperTriangular fun i j hij => hu i i.2 j hij
  rw [h]
  unfold solveTriChoice
  rw [d0, d1]
  constructor
  · intro hd
    have hne : (R.asMatrix n n).det ≠ 0 := by
      rw [hdet, Finset.prod_ne_zero_iff]
      exact fun i _ => hd i i.2
    have hex : ∃ G, IsInv G R n := let ⟨G, hG, _⟩ := exists_inv hne; ⟨G, hG⟩
    rw [dif_pos hex]
    refine ⟨_, rfl, rfl, fun i hi j hj => ?_⟩
    have hG := hex.choose_spec
    generalize hex.choose = G at hG ⊢
    obtain ⟨G', h1, h2⟩ := exists_inv hne
    have hGG : ∀ t < n, ∑ s ∈ range n, G t s * B.get [s, j] = ∑ s ∈ range n, G' t s * B.get [s, j] := by
      intro t ht
      refine (solve_unique hG (x := fun t => ∑ s ∈ range n, G' t s * B.get [s, j]) (y := fun s => B.get [s, j]) ?_ t ht).symm
      intro i hi
      simp only [mul_sum]
      rw [sum_comm]
      simp only [← mul_assoc, ← sum_mul]
      rw [sum_eq_single i]
      · rw [h2 i hi i hi, if_pos rfl, one_mul]
      · intro u hu hne
        rw [h2 i hi u (mem_range.1 hu), if_neg (Ne.symm hne), zero_mul]
      · intro h; exact absurd (mem_range.2 hi) h
    have e : ∀ t ∈ range n, R.get [i, t] * (ND.ofFn [n, k] fun i => ∑ t ∈ range n, G (i.getD 0 0) t * B.get [t, i.getD 1 0]).get [t, j]
        = ∑ s ∈ range n, R.get [i, t] * G' t s * B.get [s, j] := by
      intro t ht
      have ht := mem_range.1 ht
      rw [ND.ofFn_get (show InR [n, k] [t, j] from ⟨ht, hj, trivial⟩)]
      show R.get [i, t] * (∑ s ∈ range n, G t s * B.get [s, j]) = _
      rw [hGG t ht, mul_sum]
      exact sum_congr rfl fun s _ => by ring
    rw [sum_congr rfl e, sum_comm]
    simp only [← sum_mul]
    rw [sum_eq_single i]
    · rw [h2 i hi i hi, if_pos rfl, one_mul]
    · intro u hu hne
      rw [h2 i hi u (mem_range.1 hu), if_neg (Ne.symm hne), zero_mul]
    · intro h; exact absurd (mem_range.2 hi) h
  · rintro ⟨i, hi, h0⟩
    rw [dif_neg]
    rintro ⟨G, hG⟩
    have hGA : (Matrix.of fun i j : Fin n => G i j) * R.asMatrix n n = 1 := by
      ext i j
      rw [Matrix.mul_apply, Matrix.one_apply]
      have := hG i i.2 j j.2
      rw [Finset.sum_range] at this
      simp only [Fin.ext_iff]
      rw [← this]
      rfl
    have := congrArg Matrix.det hGA
    rw [Matrix.det_mul, hdet, Finset.prod_eq_zero (mem_univ ⟨i, hi⟩) h0, mul_zero, Matrix.det_one] at this
    exact zero_ne_one this

/-- The matrix `[[2, 1], [0, 3]]`. -/
def precA : ND ℝ := ND.ofFn [2, 2] fun i =>
  if i = [0, 0] then 2 else if i = [0, 1] then 1 else if i = [1, 1] then 3 else 0

example : ∃ la : LinAlg2, la.QROk ∧ la.SolveTriOk ∧ precA.shape = [2, 2] ∧ (precA.asMatrix 2 2).det ≠ 0 ∧
    x9.Valid ∧ x9.Pos ∧ 0 < x9.shape.length ∧ x9.shape.getD 0 0 = 2 := by
  refine ⟨⟨laChoice, solveTriChoice, fun _ _ => ([], [])⟩, laChoice_qr, solveTriChoice_ok rfl, rfl, ?_, x9_valid, x9_pos,
    by decide, by decide⟩
  rw [Matrix.det_fin_two]
  simp [ND.asMatrix, precA, ND.ofFn_get']

end TTS.Props
