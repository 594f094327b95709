import Verif.Proofs.TensorSp

/-! Transpose and scalar multiplication in every format. -/

namespace TTS

open Finset

variable {K : Type*}

/-! ### Transpose -/

section
variable [Zero K]

theorem setEntry_foldl_rev (es : List (List ℕ × K)) (sh : List ℕ) (A B : ND K)
    (hA : A.shape = sh) (hB : B.shape = sh.reverse) (he : ∀ e ∈ es, InR sh e.1)
    (hAB : ∀ i, B.get i.reverse = A.get i) (i : List ℕ) :
    ((es.map fun e => (e.1.reverse, e.2)).foldl (fun A e => A.setEntry e.1 e.2) B).get i.reverse
      = (es.foldl (fun A e => A.setEntry e.1 e.2) A).get i := by
  induction es generalizing A B with
  | nil => exact hAB i
  | cons e es ih =>
    rw [List.map_cons, List.foldl_cons, List.foldl_cons]
    refine ih _ _ (by simpa) (by simpa) (fun x hx => he x (by simp [hx])) ?_
    intro j
    have h1 := he e (by simp)
    rw [ND.setEntry_get (by rw [hB]; exact h1.reverse), ND.setEntry_get (by rw [hA]; exact h1), hAB]
    simp

theorem TT.T_shape (X : TT K) (h : X.Valid) : X.T.shape = X.shape.reverse := by
  obtain ⟨cores⟩ := X
  have : ∀ {Cs : List (ND K)} {r s : ℕ}, TTChain r Cs s →
      (Cs.reverse.map fun C => C.transpose [2, 1, 0]).map (fun C => C.dim 1)
        = (Cs.map fun C => C.dim 1).reverse := by
    intro Cs
    induction Cs with
    | nil => intros; rfl
    | cons C Cs ih =>
      intro r s hc
      obtain ⟨n, t, hC, hCs⟩ := hc
      have := ih hCs
      simp only [List.map_cons, List.reverse_cons, List.map_append, List.map_nil]
      rw [this]
      simp [ND.dim, hC]
  exact this h.2

end

section
variable [CommSemiring K]

theorem CP.T_shape (X : CP K) : X.T.shape = X.shape.reverse := by
  simp [CP.T, CP.shape]

theorem Tucker.T_shape (X : Tucker K) : X.T.shape = X.shape.reverse := by
  simp [Tucker.T, Tucker.shape]

theorem Tucker.T_rank (X : Tucker K) : X.T.rank = X.rank.reverse := by
  simp [Tucker.T, Tucker.rank]

theorem CP.T_rank {X : CP K} (h : X.Valid) : X.T.rank = X.rank := by
  obtain ⟨cores⟩ := X
  obtain ⟨hne, hc⟩ := h
  have hne' : cores.reverse ≠ [] := by simpa using hne
  match hr : cores.reverse, hne' with
  | C :: Cs, _ =>
    have hmem : C ∈ cores := by
      have : C ∈ cores.reverse := by rw [hr]; simp
      simpa using this
    obtain ⟨n, hn⟩ := hc C hmem
    have e : (CP.T ⟨cores⟩).rank = C.dim 1 := by simp [CP.T, CP.rank, hr]
    rw [e]; simp [ND.dim, hn]

theorem Tucker.ndim_core {X : Tucker K} (h : X.Valid) :
    (List.range X.shape.length).reverse = (List.range X.core.ndim).reverse := by
  have : X.shape.length = X.core.ndim := by
    show _ = X.core.shape.length
    rw [h.2]; simp [Tucker.shape, Tucker.rank]
  rw [this]

theorem Leaf.T_valid {X : Leaf K} (h : X.Valid) : X.T.Valid := by
  cases X with
  | dense X => trivial
  | sparse X =>
    intro e he
    obtain ⟨e', he', rfl⟩ := List.mem_map.1 he
    exact (h e' he').reverse
  | tt X =>
    refine ⟨?_, tr_chain h.2⟩
    intro hh
    exact h.1 (by simpa [TT.T] using hh)
  | cp X =>
    refine ⟨?_, ?_⟩
    · intro hh; exact h.1 (by simpa [CP.T] using hh)
    · intro C hC
      rw [CP.T_rank h]
      exact h.2 C (by simpa [CP.T] using hC)
  | tucker X =>
    refine ⟨?_, ?_⟩
    · intro U hU; exact h.1 U (by simpa [Tucker.T] using hU)
    · rw [Tucker.T_rank, ← h.2]
      show (X.core.transpose _).shape = _
      rw [Tucker.ndim_core h, ND.transpose_rev_shape]

theorem Leaf.T_shape {X : Leaf K} (h : X.Valid) : X.T.shape = X.shape.reverse := by
  cases X with
  | dense X => exact ND.transpose_rev_shape X
  | sparse X => rfl
  | tt X => exact TT.T_shape X h
  | cp X => exact CP.T_shape X
  | tucker X => exact Tucker.T_shape X

theorem Leaf.T_get {X : Leaf K} (h : X.Valid) (i : List ℕ) :
    X.T.toNumpy.get i.reverse = X.toNumpy.get i := by
  have hv := Leaf.T_valid h
  cases X with
  | dense X =>
    show (X.transpose _).get _ = _
    rw [ND.transpose_rev_get]; simp [Leaf.toNumpy]
  | sparse X => exact setEntry_foldl_rev X.entries X.shape _ _ rfl rfl h (by simp) i
  | tt X =>
    show X.T.toNumpy.get _ = X.toNumpy.get _
    rw [TT.toNumpy_get h, TT.toNumpy_get hv]
    exact ttVal_tr h.2 i 0 0 (by simp) (by simp)
  | cp X =>
    show X.T.toNumpy.get _ = X.toNumpy.get _
    rw [CP.toNumpy_get h, CP.toNumpy_get hv, cpEntry, cpEntry, CP.T_rank h]
    exact sum_congr rfl fun r _ => cpProd_reverse _ _ _
  | tucker X =>
    show X.T.toNumpy.get _ = X.toNumpy.get _
    rw [Tucker.toNumpy_get h, Tucker.toNumpy_get hv, tuckerEntry, tuckerEntry, Tucker.T_rank,
      sumIdx_reverse]
    refine sumIdx_congr fun q _ => ?_
    have e1 : X.T.core.get q.reverse = X.core.get q := by
      show (X.core.transpose _).get _ = _
      rw [Tucker.ndim_core h, ND.transpose_rev_get, List.reverse_reverse]
    have e2 : facProd X.T.factors q.reverse i.reverse = facProd X.factors q i :=
      facProd_reverse _ _ _
    rw [e1, e2]

theorem ND.transpose_rev_rev (A : ND K) :
    (A.transpose (List.range A.ndim).reverse).transpose
      (List.range (A.transpose (List.range A.ndim).reverse).ndim).reverse = A := by
  refine ND.ext' ?_ ?_
  · rw [ND.transpose_rev_shape, ND.transpose_rev_shape, List.reverse_reverse]
  · intro i _
    rw [ND.transpose_rev_get, ND.transpose_rev_get, List.reverse_reverse]

theorem ND.transpose210_invol {C : ND K} {a b c : ℕ} (h : C.shape = [a, b, c]) :
    (C.transpose [2, 1, 0]).transpose [2, 1, 0] = C := by
  have := ND.transpose_rev_rev C
  have e : (List.range C.ndim).reverse = [2, 1, 0] := by simp [ND.ndim, h, List.range_succ]
  have e' : (List.range (C.transpose [2, 1, 0]).ndim).reverse = [2, 1, 0] := by
    simp [ND.ndim, List.range_succ]
  rw [e, e'] at this
  exact this

theorem Leaf.T_T {X : Leaf K} (h : X.Valid) : X.T.T = X := by
  cases X with
  | dense X =>
    show Leaf.dense _ = _
    rw [ND.transpose_rev_rev]
  | sparse X =>
    obtain ⟨sh, es⟩ := X
    simp [Leaf.T, Sparse.T, Function.comp_def]
  | tt X =>
    obtain ⟨cores⟩ := X
    have : ∀ {Cs : List (ND K)} {r s : ℕ}, TTChain r Cs s →
        Cs.map (fun C => (C.transpose [2, 1, 0]).transpose [2, 1, 0]) = Cs := by
      intro Cs
      induction Cs with
      | nil => intros; rfl
      | cons C Cs ih =>
        intro r s hc
        obtain ⟨n, t, hC, hCs⟩ := hc
        rw [List.map_cons, ih hCs, ND.transpose210_invol hC]
    simp only [Leaf.T, TT.T, List.map_reverse, List.reverse_reverse, List.map_map]
    exact congrArg (fun c => Leaf.tt ⟨c⟩) (this h.2)
  | cp X => simp [Leaf.T, CP.T]
  | tucker X =>
    have hv : X.T.Valid := Leaf.T_valid (X := .tucker X) h
    show Leaf.tucker X.T.T = _
    congr 1
    have e2 : X.T.T.core = X.core := by
      show (X.T.core.transpose _) = _
      rw [Tucker.ndim_core hv]
      show ((X.core.transpose (List.range X.shape.length).reverse).transpose
        (List.range (X.core.transpose (List.range X.shape.length).reverse).ndim).reverse) = _
      rw [Tucker.ndim_core h, ND.transpose_rev_rev]
    have e1 : X.T.T.factors = X.factors := by simp [Tucker.T]
    have ext : ∀ Y Z : Tucker K, Y.factors = Z.factors → Y.core = Z.core → Y = Z := by
      rintro ⟨_, _⟩ ⟨_, _⟩ h1 h2; simp only at h1 h2; rw [h1, h2]
    exact ext _ _ e1 e2

/-! ### Scalar multiplication -/

theorem setEntry_foldl_mul (es : List (List ℕ × K)) (c : K) (sh : List ℕ) (A B : ND K)
    (hA : A.shape = sh) (hB : B.shape = sh) (he : ∀ e ∈ es, InR sh e.1)
    (hAB : ∀ i, B.get i = A.get i * c) (i : List ℕ) :
    ((es.map fun e => (e.1, e.2 * c)).foldl (fun A e => A.setEntry e.1 e.2) B).get i
      = (es.foldl (fun A e => A.setEntry e.1 e.2) A).get i * c := by
  induction es generalizing A B with
  | nil => exact hAB i
  | cons e es ih =>
    rw [List.map_cons, List.foldl_cons, List.foldl_cons]
    refine ih _ _ (by simpa) (by simpa) (fun x hx => he x (by simp [hx])) ?_
    intro j
    have h1 := he e (by simp)
    rw [ND.setEntry_get (by rw [hB]; exact h1), ND.setEntry_get (by rw [hA]; exact h1), hAB]
    split_ifs <;> rfl

theorem TT.mul_cores {X : TT K} (h : X.cores ≠ []) (c : K) :
    (X.mul c).cores = X.cores.dropLast ++ [(X.cores.getLast h).smul c] := by
  simp [TT.mul, List.getLast?_eq_getLast_of_ne_nil h]

theorem chain_last {Cs : List (ND K)} {r s : ℕ} (h : TTChain r Cs s) (hne : Cs ≠ []) :
    ∃ u n, TTChain r Cs.dropLast u ∧ (Cs.getLast hne).shape = [u, n, s] := by
  have h' := h
  rw [← List.dropLast_append_getLast hne] at h'
  obtain ⟨u, h1, n, t, h2, h3⟩ := h'.split
  cases h3
  exact ⟨u, n, h1, h2⟩

theorem Leaf.mul_valid {X : Leaf K} (h : X.Valid) (c : K) : (X.mul c).Valid := by
  cases X with
  | dense X => trivial
  | sparse X =>
    intro e he
    obtain ⟨e', he', rfl⟩ := List.mem_map.1 he
    exact h e' he'
  | tt X =>
    obtain ⟨u, n, h1, h2⟩ := chain_last h.2 h.1
    show (X.mul c).cores ≠ [] ∧ TTChain 1 (X.mul c).cores 1
    rw [TT.mul_cores h.1]
    exact ⟨by simp, h1.append ⟨n, 1, by simpa using h2, rfl⟩⟩
  | cp X =>
    obtain ⟨cores⟩ := X
    obtain ⟨hne, hc⟩ := h
    match cores, hne, hc with
    | C :: Cs, _, hc =>
      refine ⟨by simp [CP.mul], ?_⟩
      intro D hD
      have hr : (CP.mul ⟨C :: Cs⟩ c).rank = (⟨C :: Cs⟩ : CP K).rank := by
        simp [CP.mul, CP.rank, ND.dim]
      rw [hr]
      simp only [CP.mul, List.mem_cons] at hD
      rcases hD with rfl | hD
      · exact hc C (by simp)
      · exact hc D (by simp [hD])
  | tucker X => exact ⟨h.1, h.2⟩

theorem Leaf.mul_shape {X : Leaf K} (h : X.Valid) (c : K) : (X.mul c).shape = X.shape := by
  cases X with
  | dense X => rfl
  | sparse X => rfl
  | tt X =>
    show (X.mul c).cores.map _ = X.cores.map _
    rw [TT.mul_cores h.1]
    conv_rhs => rw [← List.dropLast_append_getLast h.1]
    simp [ND.dim]
  | cp X =>
    obtain ⟨cores⟩ := X
    cases cores <;> rfl
  | tucker X => rfl

theorem Leaf.mul_get {X : Leaf K} (h : X.Valid) (c : K) (i : List ℕ) :
    (X.mul c).toNumpy.get i = X.toNumpy.get i * c := by
  have hv := Leaf.mul_valid h c
  cases X with
  | dense X => exact ND.smul_get c X i
  | sparse X => exact setEntry_foldl_mul X.entries c X.shape _ _ rfl rfl h (by simp) i
  | tt X =>
    show (X.mul c).toNumpy.get _ = X.toNumpy.get _ * c
    rw [TT.toNumpy_get h, TT.toNumpy_get hv]
    obtain ⟨u, n, h1, h2⟩ := chain_last h.2 h.1
    rw [ttEntry, ttEntry, TT.mul_cores h.1]
    by_cases hl : i.length = X.cores.length
    · have hi : i ≠ [] := by
        rintro rfl; exact h.1 (List.eq_nil_of_length_eq_zero hl.symm)
      rw [← List.dropLast_append_getLast hi]
      conv_rhs => rw [← List.dropLast_append_getLast h.1]
      rw [ttVal_concat h1 (by simpa using h2) _ (by simp [hl]) _ _ _ (by simp),
        ttVal_concat h1 h2 _ (by simp [hl]) _ _ _ (by simp), sum_mul]
      refine sum_congr rfl fun x _ => ?_
      rw [ND.smul_get, mul_assoc]
    · have hpos : 0 < X.cores.length := List.length_pos_of_ne_nil h.1
      rw [ttVal_length _ _ _ _ hl, ttVal_length _ _ _ _ (by simp; omega), zero_mul]
  | cp X =>
    show (X.mul c).toNumpy.get _ = X.toNumpy.get _ * c
    rw [CP.toNumpy_get h, CP.toNumpy_get hv]
    obtain ⟨cores⟩ := X
    obtain ⟨hne, hc⟩ := h
    match cores, hne, hc with
    | C :: Cs, _, hc =>
      have hr : (CP.mul ⟨C :: Cs⟩ c).rank = (⟨C :: Cs⟩ : CP K).rank := by
        simp [CP.mul, CP.rank, ND.dim]
      rw [cpEntry, cpEntry, hr, sum_mul]
      refine sum_congr rfl fun r _ => ?_
      cases i with
      | nil => simp [CP.mul, cpProd]
      | cons j i =>
        simp only [CP.mul, cpProd, ND.smul_get]; ring
  | tucker X =>
    show (X.mul c).toNumpy.get _ = X.toNumpy.get _ * c
    rw [Tucker.toNumpy_get h, Tucker.toNumpy_get hv, tuckerEntry, tuckerEntry, sumIdx_mul]
    refine sumIdx_congr fun q _ => ?_
    show (X.core.smul c).get q * _ = _
    rw [ND.smul_get]
    show _ * facProd X.factors q i = _
    ring

end

end TTS
