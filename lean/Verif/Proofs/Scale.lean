import Verif.Proofs.Stream

/-! Scaling a tensor scales its streaming sketch (all formats). -/

namespace TTS

open Finset

variable {K : Type*} [CommRing K]

theorem ND.ofFn_smul (sh : List ℕ) (f : List ℕ → K) (c : K) :
    (ND.ofFn sh f).smul c = ND.ofFn sh fun i => f i * c := by
  refine ND.ext' rfl fun i hi => ?_
  have hi' : InR sh i := hi
  rw [ND.smul_get, ND.ofFn_get hi', ND.ofFn_get hi']

theorem ND.matmul_smul_left (A B : ND K) (c : K) : (A.smul c).matmul B = (A.matmul B).smul c := by
  unfold ND.matmul
  rw [ND.ofFn_smul]
  congr 1
  funext i
  rw [sum_mul]
  refine sum_congr rfl fun k _ => ?_
  rw [ND.smul_get]; ring

theorem ND.matmul_smul_right (A B : ND K) (c : K) : A.matmul (B.smul c) = (A.matmul B).smul c := by
  unfold ND.matmul
  rw [ND.ofFn_smul]
  congr 1
  funext i
  rw [sum_mul]
  refine sum_congr rfl fun k _ => ?_
  rw [ND.smul_get]; ring

theorem ND.reshape_smul (A : ND K) (sh : List ℕ) (c : K) : (A.smul c).reshape sh = (A.reshape sh).smul c := by
  unfold ND.reshape
  rw [ND.ofFn_smul]
  congr 1
  funext i
  rw [ND.smul_get]; rfl

theorem ND.transpose_smul (A : ND K) (p : List ℕ) (c : K) : (A.smul c).transpose p = (A.transpose p).smul c := by
  unfold ND.transpose
  rw [ND.ofFn_smul]
  congr 1
  funext i
  rw [ND.smul_get]; rfl

theorem ND.matT_smul (A : ND K) (c : K) : (A.smul c).matT = A.matT.smul c := by
  unfold ND.matT
  rw [ND.ofFn_smul]
  congr 1
  funext i
  rw [ND.smul_get]

theorem ND.matricize_smul (A : ND K) (mode : List ℕ) (b : Bool) (c : K) :
    (A.smul c).matricize mode b = (A.matricize mode b).smul c := by
  unfold ND.matricize
  cases b
  all_goals
    simp only [ND.transpose_smul, ND.reshape_smul]
    rfl

theorem ND.einsum_smul (o1 o2 : List (List ND.Lb × ND K)) (L : List ND.Lb) (A : ND K) (out : List ND.Lb) (c : K) :
    ND.einsum (o1 ++ (L, A.smul c) :: o2) out = (ND.einsum (o1 ++ (L, A) :: o2) out).smul c := by
  unfold ND.einsum
  rw [ND.ofFn_smul]
  simp only [List.map_append, List.map_cons, ND.smul_shape, List.flatMap_append, List.flatMap_cons,
    ND.smul_get, List.prod_append, List.prod_cons]
  congr 1
  funext i
  rw [sumIdx_mul]
  refine sumIdx_congr fun p _ => ?_
  ring

theorem ND.es_ijk_kl_ijl_smul (A B : ND K) (c : K) :
    ND.es_ijk_kl_ijl (A.smul c) B = (ND.es_ijk_kl_ijl A B).smul c := ND.einsum_smul [] _ _ A _ c

theorem ND.es_ij_jkl_ikl_smul (A B : ND K) (c : K) :
    ND.es_ij_jkl_ikl A (B.smul c) = (ND.es_ij_jkl_ikl A B).smul c := ND.einsum_smul [_] _ _ B _ c

theorem ND.es_ij_jkl_lm_ikm_smul (A B C : ND K) (c : K) :
    ND.es_ij_jkl_lm_ikm A (B.smul c) C = (ND.es_ij_jkl_lm_ikm A B C).smul c := ND.einsum_smul [_] _ _ B _ c

theorem ND.es_ij_jkl_ml_ikm_smul (A B C : ND K) (c : K) :
    ND.es_ij_jkl_ml_ikm A (B.smul c) C = (ND.es_ij_jkl_ml_ikm A B C).smul c := ND.einsum_smul [_] _ _ B _ c

theorem ND.es_ijk_jl_ilk_smul (A B : ND K) (c : K) :
    ND.es_ijk_jl_ilk (A.smul c) B = (ND.es_ijk_jl_ilk A B).smul c := ND.einsum_smul [] _ _ A _ c

/-! ### contractions do not look at the values -/

/-- the formats whose contractions depend on the structure only -/
def Leaf.Flat : Leaf K → Prop
  | .sparse _ => True
  | .dense _ => True
  | .tucker _ => True
  | _ => False

theorem Sparse.mul_row (X : Sparse K) (c : K) (mu : ℕ) : (X.mul c).row mu = X.row mu := by
  simp [Sparse.row, Sparse.mul]

theorem Sparse.mul_T (X : Sparse K) (c : K) : (X.mul c).T = X.T.mul c := by
  simp [Sparse.T, Sparse.mul]

theorem sketchOwn_mul (env : Env K) (D : DRM K) (X : Leaf K) (hX : X.Flat) (c : K) :
    D.sketchOwn env (X.mul c) = D.sketchOwn env X := by
  obtain ⟨B, d⟩ := D
  cases X with
  | tt X => exact hX.elim
  | cp X => exact hX.elim
  | dense X => cases d <;> rfl
  | tucker X => cases d <;> rfl
  | sparse X =>
    cases d with
    | dense mats =>
      simp only [DRM.sketchOwn, Leaf.mul, Sparse.mul, List.map_map]
      rfl
    | gauss =>
      simp only [DRM.sketchOwn, Leaf.mul, Sparse.rowsU64, Sparse.mul_row]
      rfl
    | sign nnz =>
      simp only [DRM.sketchOwn, Leaf.mul, Sparse.rowsU64, Sparse.mul_row]
      rfl
    | tt cores =>
      simp only [DRM.sketchOwn, Leaf.mul, ttSketchSparse, Sparse.mul_row]

theorem sketch_mul (env : Env K) (D : DRM K) (X : Leaf K) (hX : X.Flat) (c : K) :
    D.sketch env (X.mul c) = D.sketch env X := by
  have hT : (X.mul c).T = X.T.mul c := by
    cases X with
    | tt X => exact hX.elim
    | cp X => exact hX.elim
    | dense X => exact congrArg Leaf.dense (ND.transpose_smul _ _ _)
    | tucker X => exact congrArg (fun C => Leaf.tucker ⟨_, C⟩) (ND.transpose_smul _ _ _)
    | sparse X => exact congrArg Leaf.sparse (Sparse.mul_T X c)
  have hsup : D.data.supports (X.mul c) = D.data.supports X := by
    cases X <;> cases D.data <;> rfl
  have hsh : (X.mul c).shape = X.shape := by
    cases X with
    | tt X => exact hX.elim
    | cp X => exact hX.elim
    | dense X => rfl
    | tucker X => rfl
    | sparse X => rfl
  have hXT : X.T.Flat := by cases X <;> exact hX
  unfold DRM.sketch
  rw [hT, hsup, hsh, sketchOwn_mul env D X hX, sketchOwn_mul env D X.T hXT]

theorem mulCols_smul (A : ND K) (v : List K) (c : K) :
    A.mulCols (v.map (· * c)) = (A.mulCols v).smul c := by
  unfold ND.mulCols
  rw [ND.ofFn_smul]
  congr 1
  funext i
  have : (v.map (· * c)).getD (i.getD 1 0) 0 = v.getD (i.getD 1 0) 0 * c := by
    generalize i.getD 1 0 = k
    by_cases h : k < v.length
    · rw [getD_eq (by simpa using h), getD_eq h, List.getElem_map]
    · rw [List.getD_eq_default _ _ (by simpa using h), List.getD_eq_default _ _ (by simpa using h), zero_mul]
  rw [this, mul_assoc]

theorem omegaLeaf_mul (X : Leaf K) (hX : X.Flat) (c : K) (mu : ℕ) (l r : ND K) :
    omegaLeaf (X.mul c) mu l r = (omegaLeaf X mu l r).smul c := by
  cases X with
  | tt X => exact hX.elim
  | cp X => exact hX.elim
  | dense X =>
    simp only [Leaf.mul, omegaLeaf, ND.matricize_smul, ND.matmul_smul_right, ND.matmul_smul_left]
  | tucker X =>
    simp only [Leaf.mul, omegaLeaf, Tucker.mul, ND.matricize_smul, ND.matmul_smul_right, ND.matmul_smul_left]
  | sparse X =>
    have : (X.mul c).entries.map Prod.snd = (X.entries.map Prod.snd).map (· * c) := by
      simp [Sparse.mul]
    simp only [Leaf.mul, omegaLeaf]
    rw [this, mulCols_smul, ND.matmul_smul_left]

theorem getD_map_mul (v : List K) (c : K) (k : ℕ) : (v.map (· * c)).getD k 0 = v.getD k 0 * c := by
  by_cases h : k < v.length
  · rw [getD_eq (by simpa using h), getD_eq h, List.getElem_map]
  · rw [List.getD_eq_default _ _ (by simpa using h), List.getD_eq_default _ _ (by simpa using h), zero_mul]

theorem psiCore_smul (C : ND K) (c : K) (l r : Option (ND K)) :
    psiCore (C.smul c) l r = (psiCore C l r).map (·.smul c) := by
  cases l <;> cases r <;>
    simp only [psiCore, Except.map, ND.es_ijk_kl_ijl_smul, ND.es_ij_jkl_ikl_smul, ND.es_ij_jkl_lm_ikm_smul]

theorem psiSparseSlice_mul (X : Sparse K) (c : K) (mu j : ℕ) (l r : Option (ND K)) :
    psiSparseSlice (X.mul c) mu j l r
      = (psiSparseSlice X mu j l r).map fun f a b => f a b * c := by
  have hv : (X.mul c).entries.map Prod.snd = (X.entries.map Prod.snd).map (· * c) := by
    simp [Sparse.mul]
  have hm : (X.mul c).mask mu j = X.mask mu j := by
    unfold Sparse.mask
    rw [Sparse.mul_row]
    simp [Sparse.nnz, Sparse.mul]
  unfold psiSparseSlice
  simp only [hv, hm]
  have hs : (X.mul c).shape = X.shape := rfl
  rw [hs]
  split_ifs
  · cases r with
    | none => rfl
    | some r =>
      show Except.ok _ = Except.ok _
      congr 1
      funext a b
      beta_reduce
      rw [← List.sum_map_mul_right]
      congr 1
      refine List.map_congr_left fun e _ => ?_
      rw [getD_map_mul]; ring
  · cases l with
    | none => rfl
    | some l =>
      show Except.ok _ = Except.ok _
      congr 1
      funext a b
      beta_reduce
      rw [← List.sum_map_mul_right]
      congr 1
      refine List.map_congr_left fun e _ => ?_
      rw [getD_map_mul]; ring
  · cases l with
    | none => rfl
    | some l =>
      cases r with
      | none => rfl
      | some r =>
        show Except.ok _ = Except.ok _
        congr 1
        funext a b
        beta_reduce
        rw [← List.sum_map_mul_right]
        congr 1
        refine List.map_congr_left fun e _ => ?_
        rw [getD_map_mul]; ring

theorem mapM_map_ok {α β γ ε : Type*} (f : α → Except ε β) (g : β → γ) : ∀ l : List α,
    l.mapM (fun x => (f x).map g) = (l.mapM f).map (List.map g)
  | [] => rfl
  | x :: l => by
    rw [List.mapM_cons, List.mapM_cons, mapM_map_ok f g l]
    cases f x with
    | error e => rfl
    | ok y => cases l.mapM f <;> rfl

theorem psiLeaf_mul (X : Leaf K) (hX : X.Flat) (c : K) (mu : ℕ) (sh : List ℕ) (l r : Option (ND K)) :
    psiLeaf (X.mul c) mu sh l r = (psiLeaf X mu sh l r).map (·.smul c) := by
  cases X with
  | tt X => exact hX.elim
  | cp X => exact hX.elim
  | dense X =>
    cases l <;> cases r
    · rfl
    · simp only [Leaf.mul, psiLeaf, psiDense, ND.matricize_smul, ND.matmul_smul_left, ND.smul_shape,
        ND.reshape_smul]
      rfl
    · simp only [Leaf.mul, psiLeaf, psiDense, ND.matricize_smul, ND.matT_smul, ND.matmul_smul_right,
        ND.smul_shape, ND.reshape_smul]
      show Except.ok _ = Except.ok _
      congr 1
    · simp only [Leaf.mul, psiLeaf, psiDense, ND.matricize_smul, ND.smul_shape,
        ND.reshape_smul, ND.es_ij_jkl_ml_ikm_smul]
      rfl
  | tucker X =>
    have e : ∀ s, (X.core.smul c).reshape? s = (X.core.reshape? s).map (·.smul c) := by
      intro s
      unfold ND.reshape?
      rw [ND.smul_shape, ND.reshape_smul]
      split <;> rfl
    have hr : (X.mul c).rank = X.rank := rfl
    simp only [Leaf.mul, psiLeaf, psiTucker]
    rw [hr, show (X.mul c).core = X.core.smul c from rfl, e]
    cases X.core.reshape? _ with
    | error e => rfl
    | ok C =>
      simp only [Except.map]
      rw [psiCore_smul]
      cases psiCore C l r with
      | error e => rfl
      | ok P =>
        show Except.ok _ = Except.ok _
        rw [← ND.es_ijk_jl_ilk_smul]
        rfl
  | sparse X =>
    simp only [Leaf.mul, psiLeaf, psiSparse, psiSparseSlice_mul]
    rw [mapM_map_ok]
    cases (List.range (sh.getD 1 0)).mapM fun j => psiSparseSlice X mu j l r with
    | error e => rfl
    | ok fs =>
      show Except.ok _ = Except.ok _
      congr 1
      beta_reduce
      rw [ND.ofFn_smul]
      congr 1
      funext i
      have : ∀ k, (fs.map fun f a b => f a b * c).getD k (fun _ _ => 0)
          = fun a b => fs.getD k (fun _ _ => 0) a b * c := by
        intro k
        by_cases h : k < fs.length
        · rw [getD_eq (by simpa using h), getD_eq h, List.getElem_map]
        · rw [List.getD_eq_default _ _ (by simpa using h), List.getD_eq_default _ _ (by simpa using h)]
          funext a b; rw [zero_mul]
      rw [this]

theorem Leaf.mul_accepts {D : DRM K} {X : Leaf K} (h : D.Accepts X) (c : K) : D.Accepts (X.mul c) := by
  refine ⟨h.wf, Leaf.mul_valid h.valid c, (Leaf.mul_shape h.valid c).trans h.shape, ?_, fun h' => h.full ?_⟩
  · rw [← h.supports]; cases X <;> cases D.data <;> rfl
  · revert h'
    obtain ⟨B, d⟩ := D
    cases d <;> cases X <;> exact id

/-- Scaling one tensor. -/
theorem leaf_scale {env : Env K} {l r : DRM K} {X : Leaf K} (hl : l.Accepts X) (hr : r.Accepts X)
    (hlt : l.transpose = false) (hrt : r.transpose = true) (c : K) :
    (∀ mu < X.shape.length - 1, oSk env l r (X.mul c) mu = (oSk env l r X mu).smul c) ∧
    (∀ mu < X.shape.length, pSk env l r (X.mul c) mu = (pSk env l r X mu).smul c) := by
  by_cases hX : X.Flat
  · have e1 : l.sketchD env (X.mul c) = l.sketchD env X := by
      unfold DRM.sketchD; rw [sketch_mul _ _ _ hX]
    have e2 : r.sketchD env (X.mul c) = r.sketchD env X := by
      unfold DRM.sketchD; rw [sketch_mul _ _ _ hX]
    refine ⟨fun mu _ => ?_, fun mu hmu => ?_⟩
    · unfold oSk
      rw [e1, e2, omegaLeaf_mul _ hX]
    · have h := (parts_sk (env := env) hl hr hlt hrt).1.psi mu hmu
      have h' : psiLeaf (X.mul c) mu (psiShape (X.mul c).shape l.rank r.rank.reverse mu)
          (loAt (l.sketchD env (X.mul c)) mu) (roAt (r.sketchD env (X.mul c)) (X.mul c).shape.length mu)
          = .ok ((pSk env l r X mu).smul c) := by
        rw [psiLeaf_mul _ hX, e1, e2, Leaf.mul_shape hl.valid, h]
        rfl
      conv_lhs => unfold pSk
      rw [h']
  · have hd : X.Distinct := by cases X <;> first | exact absurd trivial hX | trivial
    have hx : X.RightExact := by cases X <;> first | exact absurd trivial hX | trivial
    have hd' : (X.mul c).Distinct := by cases X <;> first | exact absurd trivial hX | trivial
    have hx' : (X.mul c).RightExact := by cases X <;> first | exact absurd trivial hX | trivial
    have hs : (X.mul c).shape = X.shape := Leaf.mul_shape hl.valid c
    have hg := Leaf.mul_get hl.valid c
    have p1 := parts_of (env := env) hl hr hlt hrt hd _ (right_spec env hr hrt hx)
      (rightMats_last env (by rw [hr.shape]))
    have p2 := parts_of (env := env) (Leaf.mul_accepts hl c) (Leaf.mul_accepts hr c) hlt hrt hd' _
      (right_spec env (Leaf.mul_accepts hr c) hrt hx')
      (rightMats_last env (by rw [(Leaf.mul_accepts hr c).shape]))
    rw [hs] at p2
    refine ⟨fun mu hmu => ?_, fun mu hmu => ?_⟩
    · have q1 := p1.om mu hmu
      have q2 := p2.om mu hmu
      unfold oSk
      rw [q1, q2, ND.ofFn_smul]
      congr 1
      funext i
      unfold omegaSpec
      rw [sumIdx_mul]
      refine sumIdx_congr fun p _ => ?_
      rw [sumIdx_mul]
      refine sumIdx_congr fun q _ => ?_
      rw [hg]; ring
    · have q1 := p1.psi mu hmu
      have q2 := p2.psi mu hmu
      unfold pSk
      rw [hs, q1, q2]
      simp only []
      rw [ND.ofFn_smul]
      congr 1
      funext i
      unfold psiSpec
      rw [sumIdx_mul]
      refine sumIdx_congr fun p _ => ?_
      rw [sumIdx_mul]
      refine sumIdx_congr fun q _ => ?_
      rw [hg]; ring

end TTS
