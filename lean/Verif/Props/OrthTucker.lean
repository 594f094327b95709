import Verif.Props.OrthAll
import Verif.Props.TuckerSketch

/-!
# C41 and C42: exact recovery of Tucker tensors with any number of modes
-/

namespace TTS.Props

open TTS Finset

variable {K : Type*} [Field K]

/-- A Tucker tensor whose factors have full row rank is sketched like a tensor contracted with some right matrices. -/
theorem streamsWith_tucker {env : Env K} {X : Tucker K} {r : DRM K} (hr : r.AcceptsT (.leaf (.tucker X)))
    (hrt : r.transpose = true) (hf : ∀ k < X.factors.length,
      ((X.factors.getD k (ND.zeros [])).asMatrix (X.rank.getD k 0) (X.shape.getD k 0)).rank = X.rank.getD k 0) :
    ∃ R : Mats K, (R X.shape.length = fun _ _ => 1) ∧ StreamsWith env (.leaf (.tucker X)) r R ∧
      ∀ mu < X.shape.length - 1, ∀ t b, InR (X.rank.drop (mu + 1)) t → b < r.rank.reverse.getD mu 0 →
        (sumIdx (X.shape.drop (mu + 1)) fun q => facProd (X.factors.drop (mu + 1)) t q * R (mu + 1) q b)
          = (X.absorbRight (r.rightMats env)).misread X.rank (mu + 1) t b := by
  obtain ⟨R, hR1, hR⟩ := right_tucker_full (env := env) hr.leaf hrt hf
  refine ⟨R, hR1, fun l hl hlt => ?_, fun mu hmu t b ht hb => ?_⟩
  · have e := generalSketch_leaf (parts_of (env := env) hl.leaf hr.leaf hlt hrt trivial R hR hR1)
    rw [ofCores_sketchOf (accepts_ranks hl.leaf hr.leaf).1 (accepts_ranks hl.leaf hr.leaf).2] at e
    exact e
  · have h1 := (hR mu hmu).2 t b ht hb
    obtain ⟨-, r2⟩ := right_raw env hr.leaf hrt
    have h2 := (right_tucker_rows (by omega) (r2 mu hmu)).2 t b ht hb
    have hsh : X.shape = r.shape := hr.shape
    rw [← h1, h2]
    unfold Mats.misread Tucker.absorbRight DRM.rightMats
    simp only [if_neg (show ¬ mu + 1 = r.shape.length by rw [← hsh]; omega)]

theorem tucker_split {X : Tucker K} (hX : X.Valid) {k : ℕ} (hk : k ≤ X.shape.length) {p q : List ℕ}
    (hp : p.length = k) :
    X.toNumpy.get (p ++ q) = sumIdx (X.rank.take k) fun s => sumIdx (X.rank.drop k) fun t =>
      X.core.get (s ++ t) * (facProd (X.factors.take k) s p * facProd (X.factors.drop k) t q) := by
  have hrl : X.rank.length = X.factors.length := by simp [Tucker.rank]
  have hsl : X.shape.length = X.factors.length := by simp [Tucker.shape]
  rw [Tucker.toNumpy_get hX, tuckerEntry, ← sum_take_drop X.rank k]
  refine sumIdx_congr fun s hs => sumIdx_congr fun t ht => ?_
  congr 1
  have hs' : s.length = k := by rw [hs.length, List.length_take]; omega
  conv_lhs => rw [← List.take_append_drop k X.factors]
  rw [facProd_append _ _ _ _ _ _ (by simp; omega) (by simp; omega)]

/-- The unfolding of a Tucker tensor times the right matrices. -/
theorem unfolding_rightContr {X : Tucker K} (hX : X.Valid) {R : Mats K} {M : List ℕ → ℕ → K} {k n : ℕ}
    (hk : k ≤ X.shape.length)
    (hM : ∀ t b, InR (X.rank.drop k) t → b < n →
      (sumIdx (X.shape.drop k) fun q => facProd (X.factors.drop k) t q * R k q b) = M t b) {p : List ℕ}
    (hp : p.length = k) {b : ℕ} (hb : b < n) :
    (sumIdx (X.shape.drop k) fun q => X.toNumpy.get (p ++ q) * R k q b)
      = sumIdx (X.rank.take k) fun s => facProd (X.factors.take k) s p *
          sumIdx (X.rank.drop k) fun t => X.core.get (s ++ t) * M t b := by
  have e : ∀ q, X.toNumpy.get (p ++ q) * R k q b = sumIdx (X.rank.take k) fun s => sumIdx (X.rank.drop k) fun t =>
      facProd (X.factors.take k) s p * X.core.get (s ++ t) * (facProd (X.factors.drop k) t q * R k q b) := by
    intro q
    rw [tucker_split hX hk hp, sumIdx_mul]
    refine sumIdx_congr fun s _ => ?_
    rw [sumIdx_mul]
    exact sumIdx_congr fun t _ => by ring
  rw [sumIdx_congr fun q _ => e q, sumIdx_comm]
  refine sumIdx_congr fun s _ => ?_
  rw [sumIdx_comm, mul_sumIdx]
  refine sumIdx_congr fun t ht => ?_
  rw [← mul_sumIdx, hM t b ht hb]
  ring

/-- The rank of an unfolding times a matrix, from the entries of the product. -/
theorem unfolding_mul_rank {A : ND K} {sh : List ℕ} (h : A.shape = sh) {R g : List ℕ → ℕ → K} {k n : ℕ}
    (hg : ∀ p b, InR (sh.take k) p → b < n → (sumIdx (sh.drop k) fun q => A.get (p ++ q) * R q b) = g p b) :
    (A.unfolding k * Matrix.of fun (j : Fin (A.shape.drop k).prod) (b : Fin n) => R (unravel (A.shape.drop k) j) b).rank
      = (Matrix.of fun (i : Fin (sh.take k).prod) (b : Fin n) => g (unravel (sh.take k) i) b).rank := by
  subst h
  congr 1
  ext i b
  rw [Matrix.mul_apply, Matrix.of_apply, ← hg _ _ (unravel_inR i.2) b.2, sumIdx_fin]
  rfl

/-- **C41, Tucker tensors** with any number of modes whose factor matrices have full row rank: if the contraction with
both matrices, as in `C33_tucker`, has the rank of the unfolding for every `mu`, then `orthogonal_sketch` returns a
tensor train denoting exactly the tensor. -/
theorem C41_recovery_tucker (env : Env K) (hE : LstsqContract env) (hQ : QRContract env) (X : Tucker K)
    (lrank rrank : RankArg) (kw : SketchKw K) (Y : TT K) (l r : DRM K) (hkw : kw.Good) (hX : X.Valid)
    (hd : 2 ≤ X.shape.length) (p1 : ∀ n ∈ X.shape, 0 < n) (p2 : ∀ r ∈ l.rank, 0 < r)
    (hf : ∀ k < X.factors.length,
      ((X.factors.getD k (ND.zeros [])).asMatrix (X.rank.getD k 0) (X.shape.getD k 0)).rank = X.rank.getD k 0)
    (h : orthogonalSketch env (.leaf (.tucker X)) lrank rrank kw = .ok (Y, l, r))
    (hrank : ∀ mu < X.shape.length - 1,
      (Matrix.of fun (a : Fin (l.rank.getD mu 0)) (b : Fin (r.rank.reverse.getD mu 0)) =>
        omegaSpec X.rank X.core.get (X.absorbLeft (l.leftMats env)) ((X.absorbRight (r.rightMats env)).misread X.rank)
          mu a b).rank = (X.toNumpy.unfolding (mu + 1)).rank) : Y.toNumpy = X.toNumpy := by
  obtain ⟨hO, -⟩ := orth_inv (X := .leaf (.tucker X)) hkw hX trivial hd h
  obtain ⟨n1, n2⟩ := hO.accL.ranks hO.accR
  obtain ⟨R, hR1, hS, -⟩ := streamsWith_tucker (env := env) hO.accR hO.dirR hf
  have hr := hO.run' hX hS
  have e := hS l hO.accL hO.dirL
  rw [generalSketch_tucker hO.accL.leaf hO.accR.leaf hO.dirL hO.dirR] at e
  injection e with e
  have hsh : X.toNumpy.shape = X.shape := Tensor.toNumpy_shape (X := .leaf (.tucker X)) hX
  have hr : OrthRun env X.shape X.toNumpy.get R l.rank r.rank.reverse
    (some (sketchOf X.shape X.toNumpy.get (l.leftMats env) R l.rank r.rank.reverse).omega) Y.cores X.shape.length := hr
  have n1 : l.rank.length = X.shape.length - 1 := n1
  have n2 : r.rank.reverse.length = X.shape.length - 1 := n2
  have hom : ∀ mu < X.shape.length - 1, (Matrix.of fun (a : Fin (l.rank.getD mu 0))
      (b : Fin (r.rank.reverse.getD mu 0)) => omegaSpec X.rank X.core.get (X.absorbLeft (l.leftMats env))
        ((X.absorbRight (r.rightMats env)).misread X.rank) mu a b)
      = ((sketchOf X.shape X.toNumpy.get (l.leftMats env) R l.rank r.rank.reverse).omega.getD mu
          (ND.zeros [])).asMatrix (l.rank.getD mu 0) (r.rank.reverse.getD mu 0) := by
    intro mu hmu
    have e' : (sketchOf X.shape X.toNumpy.get (l.leftMats env) R l.rank r.rank.reverse).omega
        = (X.sketchOf (X.absorbLeft (l.leftMats env)) ((X.absorbRight (r.rightMats env)).misread X.rank)
          l.rank r.rank.reverse).omega := by rw [e]; rfl
    rw [e']
    have e'' := getD_map_range (fun mu => ND.ofFn [l.rank.getD mu 0, r.rank.reverse.getD mu 0] fun i =>
      omegaSpec X.rank X.core.get (X.absorbLeft (l.leftMats env)) ((X.absorbRight (r.rightMats env)).misread X.rank)
        mu (i.getD 0 0) (i.getD 1 0)) (X.shape.length - 1) mu (ND.zeros []) hmu
    rw [show (X.sketchOf (X.absorbLeft (l.leftMats env)) ((X.absorbRight (r.rightMats env)).misread X.rank)
          l.rank r.rank.reverse).omega.getD mu (ND.zeros []) = _ from e'']
    ext a b
    have hi : InR [l.rank.getD mu 0, r.rank.reverse.getD mu 0] [(a : ℕ), (b : ℕ)] := by
      generalize hA : l.rank.getD mu 0 = A at a
      generalize hB : r.rank.reverse.getD mu 0 = B at b
      simp
    exact (ND.ofFn_get (f := fun i => omegaSpec X.rank X.core.get (X.absorbLeft (l.leftMats env))
      ((X.absorbRight (r.rightMats env)).misread X.rank) mu (i.getD 0 0) (i.getD 1 0)) hi).symm
  have hrank' : ∀ mu < X.shape.length - 1, _ := fun mu hmu => (hom mu hmu) ▸ hrank mu hmu
  rw [← hsh] at hr n1 n2 hd p1 hrank' hR1
  exact orth_recover_of hE hQ hd hr n1 n2 (fun b => by rw [hR1]) p1 p2 hrank'

/-- **C42, Tucker tensors** with any number of modes whose factor matrices have full row rank: if for every `mu` the
right contraction has the rank of the unfolding, `hmt_sketch` returns a tensor train denoting exactly the tensor. -/
theorem C42_recovery_tucker (env : Env K) (hE : LstsqContract env) (hQ : QRContract env) (X : Tucker K) (rank : RankArg)
    (seed : Option ℕ) (kind : Option DRMKind) (drm : Option (DRM K)) (b : Bool) (Y : TT K) (D : DRM K)
    (hg : ∀ D, drm = some D → D.WF ∧ D.toDRMBase.Full ∧ D.transpose = true) (hX : X.Valid)
    (hd : 2 ≤ X.shape.length) (p1 : ∀ n ∈ X.shape, 0 < n) (p2 : ∀ r ∈ D.rank, 0 < r)
    (hf : ∀ k < X.factors.length,
      ((X.factors.getD k (ND.zeros [])).asMatrix (X.rank.getD k 0) (X.shape.getD k 0)).rank = X.rank.getD k 0)
    (hD : hmtDRM env X.shape rank (seed.getD (env.freshSeed % 2 ^ 32)) kind drm = .ok D)
    (h : hmtSketch env (.leaf (.tucker X)) rank seed kind drm b = .ok Y)
    (hrank : ∀ mu < X.shape.length - 1,
      (Matrix.of fun (i : Fin (X.shape.take (mu + 1)).prod) (b : Fin (D.rank.reverse.getD mu 0)) =>
        X.rightContr (D.rightMats env) (mu + 1) (unravel (X.shape.take (mu + 1)) i) b).rank
      = (X.toNumpy.unfolding (mu + 1)).rank) : Y.toNumpy = X.toNumpy := by
  obtain ⟨-, D', h0, hO⟩ := hmt_inv (X := .leaf (.tucker X)) hg hX trivial hd h
  have h0 : hmtDRM env X.shape rank (seed.getD (env.freshSeed % 2 ^ 32)) kind drm = .ok D' := h0
  rw [hD] at h0
  injection h0 with h0
  subst h0
  obtain ⟨R, hR1, hS, hM⟩ := streamsWith_tucker (env := env) hO.acc hO.dir hf
  have hr := hO.run' hX hS
  have n1 : D.rank.reverse.length = X.shape.length - 1 := hO.ranks
  have hr : OrthRun env X.shape X.toNumpy.get R D.rank.reverse D.rank.reverse none Y.cores X.shape.length := hr
  have hsh : X.toNumpy.shape = X.shape := Tensor.toNumpy_shape (X := .leaf (.tucker X)) hX
  have hrank' : ∀ mu < X.shape.length - 1, (X.toNumpy.unfolding (mu + 1) * Matrix.of fun
      (j : Fin (X.toNumpy.shape.drop (mu + 1)).prod) (b : Fin (D.rank.reverse.getD mu 0)) =>
        R (mu + 1) (unravel (X.toNumpy.shape.drop (mu + 1)) j) b).rank = (X.toNumpy.unfolding (mu + 1)).rank := by
    intro mu hmu
    rw [← hrank mu hmu]
    refine unfolding_mul_rank hsh (fun p b hp hb => ?_)
    have hpl : p.length = mu + 1 := by rw [hp.length, List.length_take]; omega
    exact unfolding_rightContr (n := D.rank.reverse.getD mu 0) hX (by omega)
      (fun t b ht hb => hM mu hmu t b ht hb) hpl hb
  rw [← hsh] at hr n1 hd p1 hrank' hR1
  obtain ⟨f1, f2, -⟩ := orth_form hE hQ hd hr n1 n1 rfl
  exact tt_of_entries f1 f2 (hmt_recover hE hQ hr (by omega) n1 (fun b => by rw [hR1])
    (positive_fit p1 (fun _ hr => p2 _ (by simpa using hr)) n1)
    fun mu hmu => colSpan_of_rank _ _ _ _ (hrank' mu hmu))

/-! ### Example

The `2 × 3 × 2` tensor with all entries `3` as a Tucker tensor of rank one. -/

def t8 : Tucker ℝ := ⟨[ones [1, 2], ones [1, 3], ones [1, 2]], ND.ofFn [1, 1, 1] fun _ => 3⟩

theorem t8_valid : t8.Valid := by
  refine ⟨fun U hU => ?_, rfl⟩
  simp only [t8, List.mem_cons, List.not_mem_nil, or_false] at hU
  rcases hU with rfl | rfl | rfl
  · exact ⟨1, 2, rfl⟩
  · exact ⟨1, 3, rfl⟩
  · exact ⟨1, 2, rfl⟩

theorem ones_rank (n : ℕ) (h : 0 < n) : ((ones [1, n] : ND ℝ).asMatrix 1 n).rank = 1 := by
  refine le_antisymm ((Matrix.rank_le_height _)) (rank_ge_one _ 0 ⟨0, h⟩ ?_)
  show (ones [1, n] : ND ℝ).get [0, 0] ≠ 0
  rw [show (ones [1, n] : ND ℝ).get [0, 0] = 1 from ND.ofFn_get (f := fun _ => (1 : ℝ)) (by simp [h])]
  exact one_ne_zero

theorem t8_full : ∀ k < t8.factors.length,
    ((t8.factors.getD k (ND.zeros [])).asMatrix (t8.rank.getD k 0) (t8.shape.getD k 0)).rank = t8.rank.getD k 0 := by
  intro k hk
  have hk' : k < 3 := hk
  interval_cases k
  · exact ones_rank 2 (by decide)
  · exact ones_rank 3 (by decide)
  · exact ones_rank 2 (by decide)

theorem t8_omega : ∀ mu < 2, omegaSpec t8.rank t8.core.get (t8.absorbLeft (l8.leftMats env8))
    ((t8.absorbRight (r8.rightMats env8)).misread t8.rank) mu 0 0 ≠ 0 := by
  refine two_cases ?_ ?_
  · simp [omegaSpec, sumIdx, sum_range_succ, DRM.leftMats, DRM.rightMats, DRM.entry, l8, r8, ttVal, ones, ND.dim,
      ND.ofFn, t8, Tucker.absorbLeft, Tucker.absorbRight, Mats.misread, Tucker.rank, Tucker.shape, facProd]
    norm_num
  · simp [omegaSpec, sumIdx, sum_range_succ, DRM.leftMats, DRM.rightMats, DRM.entry, l8, r8, ttVal, ones, ND.dim,
      ND.ofFn, t8, Tucker.absorbLeft, Tucker.absorbRight, Mats.misread, Tucker.rank, Tucker.shape, facProd]
    norm_num

theorem t8_get {i : List ℕ} (hi : InR [2, 3, 2] i) : t8.toNumpy.get i = 3 := by
  rw [Tucker.toNumpy_get t8_valid]
  match i, hi with
  | [a, b, c], ⟨ha, hb, hc, _⟩ =>
    simp only [tuckerEntry, t8, Tucker.rank, List.map_cons, List.map_nil, facProd]
    have e1 : (ones [1, 2] : ND ℝ).get [0, a] = 1 := ones_get (by simp [ha])
    have e2 : (ones [1, 3] : ND ℝ).get [0, b] = 1 := ones_get (by simp [hb])
    have e3 : (ones [1, 2] : ND ℝ).get [0, c] = 1 := ones_get (by simp [hc])
    have e4 : (ND.ofFn [1, 1, 1] fun _ => (3 : ℝ)).get [0, 0, 0] = 3 := ND.ofFn_get (f := fun _ => (3 : ℝ)) (by simp)
    have d : ∀ n, (ones [1, n] : ND ℝ).dim 0 = 1 := fun _ => rfl
    simp [sumIdx, e1, e2, e3, e4, d, facProd]

theorem const_rank {m n : ℕ} (hm : 0 < m) (hn : 0 < n) {M : Matrix (Fin m) (Fin n) ℝ} {f : Fin n → ℝ}
    (h : ∀ i j, M i j = f j) (hf : f ⟨0, hn⟩ ≠ 0) : M.rank = 1 := by
  refine le_antisymm ?_ (rank_ge_one _ ⟨0, hm⟩ ⟨0, hn⟩ (by rw [h]; exact hf))
  have : M = Matrix.vecMulVec (fun _ => 1) f := by
    ext i j
    rw [h, Matrix.vecMulVec_apply, one_mul]
  rw [this]
  exact Matrix.rank_vecMulVec_le _ _

theorem t8_rank : ∀ mu < 2, (t8.toNumpy.unfolding (mu + 1)).rank = 1 := by
  intro mu hmu
  have key : ∀ (A : ND ℝ), A.shape = [2, 3, 2] → (∀ i, InR [2, 3, 2] i → A.get i = 3) → (A.unfolding (mu + 1)).rank = 1 := by
    rintro ⟨sh, g⟩ rfl h
    refine const_rank (f := fun _ => 3) ?_ ?_ (fun i j => ?_) (by norm_num)
    · obtain rfl | rfl : mu = 0 ∨ mu = 1 := by omega
      all_goals simp
    · obtain rfl | rfl : mu = 0 ∨ mu = 1 := by omega
      all_goals simp
    · refine h _ ?_
      have := (unravel_inR i.2).append (unravel_inR j.2)
      rwa [List.take_append_drop] at this
  exact key _ (Tensor.toNumpy_shape (X := .leaf (.tucker t8)) t8_valid) fun i hi => t8_get hi

theorem t8_contr {R : Mats ℝ} {mu : ℕ} (hmu : mu < 2) : ∀ p p' {b : ℕ}, InR ([2, 3, 2].take (mu + 1)) p →
    InR ([2, 3, 2].take (mu + 1)) p' → t8.rightContr R (mu + 1) p b = t8.rightContr R (mu + 1) p' b := by
  have e : ∀ {n a : ℕ}, a < n → (ones [1, n] : ND ℝ).get [0, a] = 1 := fun h => ones_get (by simp [h])
  have d : ∀ n, (ones [1, n] : ND ℝ).dim 0 = 1 := fun _ => rfl
  intro p p' b hp hp'
  obtain rfl | rfl : mu = 0 ∨ mu = 1 := by omega
  · match p, p', hp, hp' with
    | [a], [a'], ⟨ha, _⟩, ⟨ha', _⟩ =>
      simp [Tucker.rightContr, t8, Tucker.rank, d, sumIdx, facProd, e ha, e ha']
  · match p, p', hp, hp' with
    | [a, c], [a', c'], ⟨ha, hc, _⟩, ⟨ha', hc', _⟩ =>
      simp [Tucker.rightContr, t8, Tucker.rank, d, sumIdx, facProd, e ha, e ha', e hc, e hc']

theorem t8_contr_ne : ∀ {mu : ℕ}, mu < 2 →
    t8.rightContr (r8.rightMats env8) (mu + 1) (List.replicate (mu + 1) 0) 0 ≠ 0 := by
  intro mu hmu
  obtain rfl | rfl : mu = 0 ∨ mu = 1 := by omega
  · simp [Tucker.rightContr, sumIdx, sum_range_succ, DRM.rightMats, DRM.entry, r8, ttVal, ones, ND.dim,
      ND.ofFn, t8, Tucker.absorbRight, Mats.misread, Tucker.rank, Tucker.shape, facProd]
    norm_num
  · simp [Tucker.rightContr, sumIdx, sum_range_succ, DRM.rightMats, DRM.entry, r8, ttVal, ones, ND.dim,
      ND.ofFn, t8, Tucker.absorbRight, Mats.misread, Tucker.rank, Tucker.shape, facProd]

/-- `C41_recovery_tucker` and `C42_recovery_tucker` apply. -/
example : (∃ Y, orthogonalSketch env8 (.leaf (.tucker t8)) (.seq [1, 1]) (.seq [2, 2])
    { left := some l8, right := some r8 } = .ok (Y, l8, r8) ∧ Y.toNumpy = t8.toNumpy) ∧
    ∃ Y, hmtSketch env8 (.leaf (.tucker t8)) (.seq [2, 2]) none none (some r8) = .ok Y ∧ Y.toNumpy = t8.toNumpy := by
  have hE : LstsqContract env8 := lstsqChoice_contract rfl
  have hQ : QRContract env8 := qrChoice_contract rfl
  have hX : (Tensor.leaf (.tucker t8)).Valid := t8_valid
  have accL : l8.AcceptsT (.leaf (.tucker t8)) := acceptsT_of l8_wf.1 l8_wf.2 hX rfl fun t ht => by
    simp only [Tensor.summands, List.mem_cons, List.not_mem_nil, or_false] at ht
    subst ht; rfl
  have accR : r8.AcceptsT (.leaf (.tucker t8)) := acceptsT_of r8_wf.1 r8_wf.2 hX rfl fun t ht => by
    simp only [Tensor.summands, List.mem_cons, List.not_mem_nil, or_false] at ht
    subst ht; rfl
  have p1 : ∀ n ∈ t8.shape, 0 < n := by
    show ∀ n ∈ [2, 3, 2], 0 < n
    decide
  constructor
  · obtain ⟨Y, hY⟩ := C41_success_supplied_all env8 hE hQ (.leaf (.tucker t8)) l8 r8 none none none hX
      accL accR rfl rfl (two_cases (by decide) (by decide)) (two_cases (by decide) (by decide))
    have hkw : ({ left := some l8, right := some r8 } : SketchKw ℝ).Good :=
      ⟨fun D h => by cases h; exact ⟨l8_wf.1, l8_wf.2, rfl⟩, fun D h => by cases h; exact ⟨r8_wf.1, r8_wf.2, rfl⟩⟩
    refine ⟨Y, hY, C41_recovery_tucker env8 hE hQ t8 _ _ _ Y l8 r8 hkw t8_valid (by decide) p1 (by
      show ∀ n ∈ [1, 1], 0 < n
      decide) t8_full hY fun mu hmu => ?_⟩
    rw [t8_rank mu hmu]
    have h := t8_omega mu hmu
    obtain rfl | rfl : mu = 0 ∨ mu = 1 := by have : mu < 2 := hmu; omega
    · exact le_antisymm (Matrix.rank_le_height (m := 1) (n := 2) _) (rank_ge_one (m := 1) (n := 2) _ 0 0 h)
    · exact le_antisymm (Matrix.rank_le_height (m := 1) (n := 2) _) (rank_ge_one (m := 1) (n := 2) _ 0 0 h)
  · obtain ⟨Y, hY⟩ := C42_success_supplied_all env8 hE hQ (.leaf (.tucker t8)) r8 none none hX
      accR rfl (two_cases (by decide) (by decide))
    have hg : ∀ D, some r8 = some D → D.WF ∧ D.toDRMBase.Full ∧ D.transpose = true :=
      fun D h => by cases h; exact ⟨r8_wf.1, r8_wf.2, rfl⟩
    refine ⟨Y, hY, C42_recovery_tucker env8 hE hQ t8 _ _ _ _ _ Y r8 hg t8_valid (by decide) p1 (by
      show ∀ n ∈ [2, 2], 0 < n
      decide) t8_full rfl hY fun mu hmu => ?_⟩
    rw [t8_rank mu hmu]
    have hf : ∀ (p p' : List ℕ) {b : ℕ}, _ := t8_contr (R := r8.rightMats env8) (mu := mu) hmu
    have h0 := t8_contr_ne hmu
    obtain rfl | rfl : mu = 0 ∨ mu = 1 := by have : mu < 2 := hmu; omega
    · exact const_rank (m := 2) (n := 2) (by decide) (by decide) (f := fun b => t8.rightContr (r8.rightMats env8) 1 [0] b)
        (fun i j => hf _ _ (unravel_inR i.2) ⟨by decide, trivial⟩) h0
    · exact const_rank (m := 6) (n := 2) (by decide) (by decide)
        (f := fun b => t8.rightContr (r8.rightMats env8) 2 [0, 0] b)
        (fun i j => hf _ _ (unravel_inR (s := [2, 3]) i.2) ⟨by decide, by decide, trivial⟩) h0

end TTS.Props
