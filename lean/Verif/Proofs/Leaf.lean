import Verif.Proofs.General

/-! The streaming sketch of one tensor. -/

namespace TTS

open Finset

variable {K : Type*} [CommRing K]

theorem DRM.Accepts.dim {D : DRM K} {X : Leaf K} (h : D.Accepts X) : 2 ≤ X.shape.length := by
  rw [h.shape]; exact h.wf.two

theorem left_spec (env : Env K) {D : DRM K} {X : Leaf K} (h : D.Accepts X)
    (ht : D.transpose = false) :
    D.sketch env X = .ok (D.sketchD env X) ∧ ∀ k < X.shape.length - 1,
      IsContrL X (k + 1) (D.rank.getD k 0) (D.leftMats env (k + 1))
        ((D.sketchD env X).getD k (ND.zeros [])) := by
  obtain ⟨l, h1, h2, h3⟩ := sketchOwn_spec env h.wf h.valid
    (by rw [h.shape]; simp [DRMBase.ownShape, ht]) h.supports h.full
  have e : D.sketch env X = .ok l := by
    unfold DRM.sketch
    rw [if_neg (by simp [h.supports]), if_neg (by simp [h.shape]), if_neg (by simp [ht]), h1]
  rw [DRM.sketchD_ok e]
  refine ⟨e, fun k hk => ?_⟩
  rw [h.shape] at hk
  exact h3 k hk

theorem supports_T (D : DRMData K) (X : Leaf K) : D.supports X.T = D.supports X := by
  cases D <;> cases X <;> rfl

theorem needsFull_T (D : DRM K) (X : Leaf K) : NeedsFull D X.T ↔ NeedsFull D X := by
  obtain ⟨B, data⟩ := D
  cases data <;> cases X <;> rfl

theorem reverse_getD {α : Type*} (l : List α) (k : ℕ) (hk : k < l.length) (z : α) :
    l.reverse.getD k z = l.getD (l.length - 1 - k) z := by
  rw [getD_eq (by simpa using hk), getD_eq (by omega), List.getElem_reverse]

/-- the contraction of the transposed tensor that a right DRM yields at position `mu` -/
theorem right_raw (env : Env K) {D : DRM K} {X : Leaf K} (h : D.Accepts X)
    (ht : D.transpose = true) :
    D.sketch env X = .ok (D.sketchD env X) ∧ ∀ mu < X.shape.length - 1,
      IsContrL X.T (X.shape.length - (mu + 1)) (D.rank.reverse.getD mu 0)
        (D.entry env (D.shape.length - 1 - (mu + 1)))
        ((D.sketchD env X).getD mu (ND.zeros [])) := by
  obtain ⟨l, h1, h2, h3⟩ := sketchOwn_spec env h.wf (Leaf.T_valid h.valid)
    (by rw [Leaf.T_shape h.valid, h.shape]; simp [DRMBase.ownShape, ht])
    (by rw [supports_T]; exact h.supports) (fun h' => h.full ((needsFull_T _ _).1 h'))
  have e : D.sketch env X = .ok l.reverse := by
    unfold DRM.sketch
    rw [if_neg (by simp [h.supports]), if_neg (by simp [h.shape]), if_pos ht, h1]
    rfl
  rw [DRM.sketchD_ok e]
  refine ⟨e, fun mu hmu => ?_⟩
  rw [h.shape] at hmu ⊢
  rw [reverse_getD D.rank _ (by rw [h.wf.rankLen]; omega), reverse_getD l _ (by omega), h.wf.rankLen, h2]
  have e1 : D.shape.length - (mu + 1) = (D.shape.length - 1 - 1 - mu) + 1 := by omega
  have e2 : D.shape.length - 1 - (mu + 1) = D.shape.length - 1 - 1 - mu := by omega
  rw [e1, e2]
  exact h3 _ (by omega)

theorem right_spec (env : Env K) {D : DRM K} {X : Leaf K} (h : D.Accepts X)
    (ht : D.transpose = true) (hx : X.RightExact) :
    ∀ mu < X.shape.length - 1,
      IsContrR X (mu + 1) (D.rank.reverse.getD mu 0) (D.rightMats env (mu + 1))
        ((D.sketchD env X).getD mu (ND.zeros [])) := by
  intro mu hmu
  have h1 := (right_raw env h ht).2 mu hmu
  have e : D.rightMats env (mu + 1)
      = fun q b => D.entry env (D.shape.length - 1 - (mu + 1)) q.reverse b := by
    funext q b
    have := h.shape
    unfold DRM.rightMats
    rw [if_neg (by rw [← h.shape]; omega)]
  rw [e]
  cases X with
  | sparse X => exact right_sparse h.valid (by exact (by omega : mu + 1 ≤ (Leaf.sparse X).shape.length)) h1
  | tt X => exact right_tt h.valid (by exact (by omega : mu + 1 < (Leaf.tt X).shape.length)) h1
  | cp X => exact right_cp h.valid (by exact (by omega : mu + 1 ≤ (Leaf.cp X).shape.length)) h1
  | dense X =>
    have hx' : X.shape.length ≤ 2 := hx
    have hd : 2 ≤ X.shape.length := h.dim
    have hmu' : mu < X.shape.length - 1 := hmu
    exact right_dense_one (by omega) h1
  | tucker X =>
    have hx' : X.shape.length ≤ 2 := hx
    have hd : 2 ≤ X.shape.length := h.dim
    have hmu' : mu < X.shape.length - 1 := hmu
    exact right_tucker (by omega) h1

theorem right_spec_dense (env : Env K) {D : DRM K} {X : ND K} (h : D.Accepts (.dense X))
    (ht : D.transpose = true) :
    ∀ mu < X.shape.length - 1,
      IsContrR (.dense X) (mu + 1) (D.rank.reverse.getD mu 0) (D.rightMatsDense env (mu + 1))
        ((D.sketchD env (.dense X)).getD mu (ND.zeros [])) := by
  intro mu hmu
  have h1 := (right_raw env h ht).2 mu hmu
  have hs : X.shape = D.shape := h.shape
  have e : D.rightMatsDense env (mu + 1)
      = fun q b => D.entry env (D.shape.length - 1 - (mu + 1))
        (unravel (X.shape.drop (mu + 1)).reverse (ravel (X.shape.drop (mu + 1)) q)) b := by
    funext q b
    unfold DRM.rightMatsDense
    rw [if_neg (by rw [← hs]; omega), hs]
  rw [e]
  exact right_dense (by omega) h1

/-- Parts from arbitrary right matrices. -/
theorem parts_of {env : Env K} {l r : DRM K} {X : Leaf K} (hl : l.Accepts X) (hr : r.Accepts X)
    (hlt : l.transpose = false) (hrt : r.transpose = true) (hd : X.Distinct) (R : Mats K)
    (hR : ∀ mu < X.shape.length - 1, IsContrR X (mu + 1) (r.rank.reverse.getD mu 0) (R (mu + 1))
        ((r.sketchD env X).getD mu (ND.zeros [])))
    (hR1 : R X.shape.length = fun _ _ => 1) :
    Parts env l r X.shape X
      (fun mu => ND.ofFn [l.rank.getD mu 0, r.rank.reverse.getD mu 0] fun i =>
        omegaSpec X.shape X.toNumpy.get (l.leftMats env) R mu (i.getD 0 0) (i.getD 1 0))
      (fun mu => ND.ofFn (psiShape X.shape l.rank r.rank.reverse mu) fun i =>
        psiSpec X.shape X.toNumpy.get (l.leftMats env) R mu (i.getD 0 0) (i.getD 1 0) (i.getD 2 0)) := by
  obtain ⟨l1, l2⟩ := left_spec env hl hlt
  have hd2 := hl.dim
  refine ⟨rfl, l1, (right_raw env hr hrt).1, fun mu hmu => ?_, fun mu hmu => ?_⟩
  · rw [omega_spec hl.valid hd (by omega) (l2 mu hmu) (hR mu hmu)]
    rfl
  · rw [psiShape]
    rw [psi_spec (L := l.leftMats env mu) (R := R (mu + 1)) hl.valid hd hd2 ⟨?_, ?_⟩]
    · rfl
    · rcases Nat.eq_zero_or_pos mu with h0 | h0
      · left; subst h0
        refine ⟨rfl, rfl, rfl, ?_⟩
        funext p a; simp [DRM.leftMats]
      · right
        refine ⟨h0, _, if_pos h0, ?_⟩
        have := l2 (mu - 1) (by omega)
        rw [show mu - 1 + 1 = mu by omega] at this
        rwa [if_pos h0]
    · by_cases h1 : mu < X.shape.length - 1
      · right
        refine ⟨by omega, _, if_pos h1, ?_⟩
        rw [if_pos h1]
        exact hR mu h1
      · left
        have e : mu + 1 = X.shape.length := by omega
        refine ⟨e, if_neg h1, if_neg h1, ?_⟩
        rw [e]; exact hR1

theorem rightMats_last (env : Env K) {D : DRM K} {n : ℕ} (h : n = D.shape.length) :
    D.rightMats env n = fun _ _ => 1 := by
  funext q b; unfold DRM.rightMats; rw [if_pos h]

theorem rightMatsDense_last (env : Env K) {D : DRM K} {n : ℕ} (h : n = D.shape.length) :
    D.rightMatsDense env n = fun _ _ => 1 := by
  funext q b; unfold DRM.rightMatsDense; rw [if_pos h]

/-- the container from specified parts -/
theorem ofCores_sketchOf {sh lr rr : List ℕ} {f : List ℕ → K} {L R : Mats K}
    (hl : lr.length = sh.length - 1) (hr : rr.length = sh.length - 1) :
    Container.ofCores
      ((List.range sh.length).map fun mu => ND.ofFn (psiShape sh lr rr mu) fun i =>
        psiSpec sh f L R mu (i.getD 0 0) (i.getD 1 0) (i.getD 2 0))
      ((List.range (sh.length - 1)).map fun mu => ND.ofFn [lr.getD mu 0, rr.getD mu 0] fun i =>
        omegaSpec sh f L R mu (i.getD 0 0) (i.getD 1 0))
      = sketchOf sh f L R lr rr := by
  rw [ofCores_eq hl hr (by simp) (fun mu hmu => by rw [getD_map_range _ _ _ _ hmu]; rfl)]
  unfold sketchOf
  congr 1
  refine List.map_congr_left fun mu hmu => ?_
  rw [psiShape_eq hr (List.mem_range.1 hmu)]

theorem accepts_ranks {l r : DRM K} {X : Leaf K} (hl : l.Accepts X) (hr : r.Accepts X) :
    l.rank.length = X.shape.length - 1 ∧ r.rank.reverse.length = X.shape.length - 1 := by
  rw [List.length_reverse, hl.wf.rankLen, hr.wf.rankLen, hl.shape, ← hr.shape, hl.shape]
  exact ⟨rfl, rfl⟩

/-- C33, one tensor. -/
theorem streaming_leaf {env : Env K} {l r : DRM K} {X : Leaf K} (hl : l.Accepts X) (hr : r.Accepts X)
    (hlt : l.transpose = false) (hrt : r.transpose = true) (hd : X.Distinct) (hx : X.RightExact) :
    generalSketch env (.leaf X) (some l) r .streaming
      = .ok (sketchOf X.shape X.toNumpy.get (l.leftMats env) (r.rightMats env) l.rank r.rank.reverse) := by
  rw [generalSketch_leaf (parts_of hl hr hlt hrt hd _ (right_spec env hr hrt hx)
    (rightMats_last env (by rw [hr.shape])))]
  rw [ofCores_sketchOf (accepts_ranks hl hr).1 (accepts_ranks hl hr).2]

end TTS
