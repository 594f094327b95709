import Verif.Proofs.DRMNew

/-! Slices of DRMs. -/

namespace TTS

open Finset

variable {K : Type*}

section
variable [CommSemiring K]

theorem nd2_ext {A B : ND K} {x y : ℕ} (hA : A.shape = [x, y]) (hB : B.shape = [x, y])
    (h : ∀ a b, a < x → b < y → A.get [a, b] = B.get [a, b]) : A = B := by
  refine ND.ext' (by rw [hA, hB]) fun i hi => ?_
  rw [hA] at hi
  match i, hi with
  | [a, b], hi => exact h a b hi.1 hi.2.1

/-- a contraction is determined by the matrix -/
theorem IsContrL.unique {X : Leaf K} (hX : X.Valid) {k r : ℕ} {L L' : List ℕ → ℕ → K} {M M' : ND K}
    (h : IsContrL X k r L M) (h' : IsContrL X k r L' M')
    (hk : 0 < k) (hk' : k ≤ X.shape.length)
    (hL : ∀ p a, InR (X.shape.take k) p → a < r → L p a = L' p a) : M = M' := by
  cases X with
  | sparse X =>
    refine nd2_ext h.1 h'.1 fun a e ha he => ?_
    have he' : e < X.entries.length := he
    rw [h.2 e he' a ha, h'.2 e he' a ha]
    exact hL _ _ ((hX _ (List.getElem_mem he')).take k) ha
  | tt X =>
    obtain ⟨x, hc, hs, hg⟩ := h
    obtain ⟨x', hc', hs', hg'⟩ := h'
    have hk2 : k ≤ X.shape.length := hk'
    have hl : X.cores.length = X.shape.length := by simp [TT.shape]
    have hne : X.cores.take k ≠ [] := by
      intro hn
      have := congrArg List.length hn
      rw [List.length_take, List.length_nil] at this
      omega
    have := TTChain.unique hne hc hc'
    subst this
    refine nd2_ext hs hs' fun y a hy ha => ?_
    rw [hg y a ha, hg' y a ha]
    exact sumIdx_congr fun p hp => by rw [hL p a hp ha]
  | cp X =>
    refine nd2_ext h.1 h'.1 fun i a hi ha => ?_
    rw [h.2 i a hi ha, h'.2 i a hi ha]
    exact sumIdx_congr fun p hp => by rw [hL p a hp ha]
  | dense X =>
    refine nd2_ext h.1 h'.1 fun a c ha hc => ?_
    have hi := unravel_inR hc
    have e := ravel_unravel hc
    rw [← e, h.2 _ a hi ha, h'.2 _ a hi ha]
    exact hL _ _ hi ha
  | tucker X =>
    refine nd2_ext h.1 h'.1 fun c a hc ha => ?_
    have hi := unravel_inR hc
    have e := ravel_unravel hc
    rw [← e, h.2 _ a hi ha, h'.2 _ a hi ha]
    exact sumIdx_congr fun p hp => by rw [hL p a hp ha]

theorem IsContrL.slice {X : Leaf K} {k r : ℕ} {L : List ℕ → ℕ → K} {M : ND K}
    (h : IsContrL X k r L M) {a b : ℕ} (hb : b ≤ r) :
    IsContrL X k (b - a) (fun p c => L p (a + c)) (X.sliceContr M a b) := by
  cases X with
  | sparse X =>
    refine ⟨?_, fun e he c hc => ?_⟩
    · exact (ND.rows_shape h.1 a b).trans (by rw [Nat.min_eq_left hb])
    · exact (ND.rows_get h.1 a b c e (by omega)).trans (h.2 e he _ (by omega))
  | dense X =>
    refine ⟨?_, fun p c hp hc => ?_⟩
    · exact (ND.rows_shape h.1 a b).trans (by rw [Nat.min_eq_left hb])
    · exact (ND.rows_get h.1 a b c _ (by omega)).trans (h.2 _ _ hp (by omega))
  | tt X =>
    obtain ⟨x, h1, h2, h3⟩ := h
    refine ⟨x, h1, ?_, fun y c hc => ?_⟩
    · exact (ND.cols_shape h2 a b).trans (by rw [Nat.min_eq_left hb])
    · exact (ND.cols_get h2 a b y c (by omega)).trans (h3 y _ (by omega))
  | cp X =>
    refine ⟨?_, fun i c hi hc => ?_⟩
    · exact (ND.cols_shape h.1 a b).trans (by rw [Nat.min_eq_left hb])
    · exact (ND.cols_get h.1 a b _ c (by omega)).trans (h.2 i _ hi (by omega))
  | tucker X =>
    refine ⟨?_, fun q c hq hc => ?_⟩
    · exact (ND.cols_shape h.1 a b).trans (by rw [Nat.min_eq_left hb])
    · exact (ND.cols_get h.1 a b _ c (by omega)).trans (h.2 q _ hq (by omega))

end

section
variable [CommRing K]

theorem ravel2 (a b x y : ℕ) : ravel [a, b] [x, y] = x * b + y := by simp

theorem denseMat_get (env : Env K) (B : DRMBase) (raw : Option ℕ) (k c y : ℕ)
    (hc : B.rankMin.getD k 0 + c < B.rankMax.getD k 0)
    (hc' : B.rankMin.getD k 0 + c < B.trueRank.getD k 0)
    (hy : y < (B.ownShape.take (k + 1)).prod) :
    (denseMat env B raw k).get [c, y]
      = env.normalStream ((B.seed + env.seedOffset raw (B.ownShape.take (k + 1)).prod) % (2 ^ 32 - 1))
        ((B.rankMin.getD k 0 + c) * (B.ownShape.take (k + 1)).prod + y) := by
  unfold denseMat
  simp only []
  rw [ND.rows_get (p := B.trueRank.getD k 0) (q := (B.ownShape.take (k + 1)).prod) rfl _ _ _ _ hc]
  rw [ND.ofFn_get (show InR [B.trueRank.getD k 0, (B.ownShape.take (k + 1)).prod] [B.rankMin.getD k 0 + c, y]
    from ⟨hc', hy, trivial⟩), ravel2]

/-- Entries of two objects of the same class, with the same seed and true ranks, that differ in the
slices only: the entry depends on the absolute column. -/
theorem entry_abs (env : Env K) (kind : DRMKind) {B B' : DRMBase} (raw : Option ℕ)
    (nnz : Option (List ℕ)) (hs : B'.ownShape = B.ownShape) (hsl : B'.shape.length = B.shape.length)
    (hseed : B'.seed = B.seed)
    (htr : (kind = .denseGaussian ∨ kind = .sparseGaussian) ∨ B'.trueRank = B.trueRank) {k c c' : ℕ} (hk : k < B.shape.length - 1) {p : List ℕ}
    (hp : InR (B.ownShape.take (k + 1)) p)
    (hc : B.rankMin.getD k 0 + c < B.rankMax.getD k 0) (hm : B.rankMax.getD k 0 ≤ B.trueRank.getD k 0)
    (hc' : B'.rankMin.getD k 0 + c' < B'.rankMax.getD k 0)
    (hm' : B'.rankMax.getD k 0 ≤ B'.trueRank.getD k 0)
    (hcc : B'.rankMin.getD k 0 + c' = B.rankMin.getD k 0 + c) :
    DRM.entry env (⟨B', buildData env kind B' raw nnz⟩ : DRM K) k p c'
      = DRM.entry env (⟨B, buildData env kind B raw nnz⟩ : DRM K) k p c := by
  have hlen : (B.ownShape.take (k + 1)).length = k + 1 := by
    rw [List.length_take, ownShape_length]; omega
  have hne : B.ownShape.take (k + 1) ≠ [] := by
    intro h; have := congrArg List.length h; rw [hlen] at this; simp at this
  have hpl : p.length = k + 1 := by rw [hp.length, hlen]
  cases kind with
  | denseGaussian =>
    show ND.get (((List.range (B'.shape.length - 1)).map _).getD k _) _
      = ND.get (((List.range (B.shape.length - 1)).map _).getD k _) _
    rw [getD_map_range _ _ _ _ hk, getD_map_range _ _ _ _ (by rw [hsl]; exact hk)]
    show (denseMat env B' raw k).get [c', ravel (B'.ownShape.take (k + 1)) p]
      = (denseMat env B raw k).get [c, ravel (B.ownShape.take (k + 1)) p]
    rw [denseMat_get env B raw k c _ hc (by omega) (ravel_lt hp),
      denseMat_get env B' raw k c' _ hc' (by omega) (by rw [hs]; exact ravel_lt hp), hs, hseed, hcc]
  | sparseGaussian =>
    obtain ⟨f, hf⟩ := Props.C28_normal env.ndtri (B.ownShape.take (k + 1)) hne (k + B.seed)
    have h1 := hf [p] (by simp [hpl, hlen])
    rw [hlen] at h1
    show ((Hash.indsToNormal _ _ (Spec.shapeArray (B'.ownShape.take (k + 1))) _ _ (k + B'.seed)).headD []).getD c' 0
      = ((Hash.indsToNormal _ _ _ _ _ _).headD []).getD c 0
    rw [hs, hseed, h1, h1]
    simp only [List.map_cons, List.map_nil, List.headD_cons]
    rw [getD_map_range _ _ _ _ (by omega), getD_map_range _ _ _ _ (by omega), hcc]
  | sparseSign =>
    have htr : B'.trueRank = B.trueRank := by simpa using htr
    have e : nnz.getD B'.trueRank = nnz.getD B.trueRank := by rw [htr]
    obtain ⟨f, hf⟩ := Props.C28_sign (B.ownShape.take (k + 1)) hne (k + B.seed) (B.trueRank.getD k 0)
      ((nnz.getD B.trueRank).getD k 0)
    have h1 := hf [p] (by simp [hpl, hlen])
    rw [hlen] at h1
    show ((((Hash.indsToSparseSign _ (Spec.shapeArray (B'.ownShape.take (k + 1))) (B'.trueRank.getD k 0) _ _
        ((nnz.getD B'.trueRank).getD k 0) (k + B'.seed)).headD []).getD c' 0 : ℤ) : K)
      = ((((Hash.indsToSparseSign _ _ _ _ _ _ _).headD []).getD c 0 : ℤ) : K)
    rw [hs, hseed, e, htr, h1]
    have h2 := h1 (B.rankMin.getD k 0) (B.rankMax.getD k 0)
    rw [h2]
    simp only [List.map_cons, List.map_nil, List.headD_cons]
    have key : ∀ (l : List ℤ) (a b j : ℕ), a + j < b → ((l.take b).drop a).getD j 0 = l.getD (a + j) 0 := by
      intro l a b j hj
      simp only [List.getD_eq_getElem?_getD, List.getElem?_drop, List.getElem?_take]
      rw [if_pos hj]
    rw [key _ _ _ _ hc', key _ _ _ _ hc, hcc]
  | tensorTrain =>
    show ttVal (((List.range (B'.shape.length - 1)).map (drmCore env B'.ownShape B'.trueRank B'.seed)).take (k + 1)) p 0
        (B'.rankMin.getD k 0 + c')
      = ttVal (((List.range (B.shape.length - 1)).map (drmCore env B.ownShape B.trueRank B.seed)).take (k + 1)) p 0
        (B.rankMin.getD k 0 + c)
    have htr : B'.trueRank = B.trueRank := by simpa using htr
    rw [hcc, hs, hseed, htr, hsl]

/-- The contraction list in the user's order. -/
theorem contr_spec (env : Env K) {D : DRM K} {X : Leaf K} (h : D.Accepts X) :
    ∃ l, D.sketch env X = .ok l ∧ l.length = X.shape.length - 1 ∧ ∀ mu < X.shape.length - 1,
      let k := if D.transpose then X.shape.length - 1 - 1 - mu else mu
      IsContrL (if D.transpose then X.T else X) (k + 1) (D.rank.getD k 0) (D.entry env k)
        (l.getD mu (ND.zeros [])) := by
  have hs : (if D.transpose then X.T else X).shape = D.ownShape := by
    unfold DRMBase.ownShape
    split
    · rw [Leaf.T_shape h.valid, h.shape]
    · rw [h.shape]
  have hv : (if D.transpose then X.T else X).Valid := by
    split
    · exact Leaf.T_valid h.valid
    · exact h.valid
  have hsup : D.data.supports (if D.transpose then X.T else X) = true := by
    split
    · rw [supports_T]; exact h.supports
    · exact h.supports
  have hfull : NeedsFull D (if D.transpose then X.T else X) → D.toDRMBase.Full := by
    split
    · exact fun h' => h.full ((needsFull_T _ _).1 h')
    · exact h.full
  obtain ⟨l, h1, h2, h3⟩ := sketchOwn_spec env h.wf hv hs hsup hfull
  have e : D.sketch env X = .ok (rev? D.transpose l) := by
    unfold DRM.sketch
    rw [if_neg (by simp [h.supports]), if_neg (by simp [h.shape])]
    cases ht : D.transpose
    · simp only [ht] at h1
      simp only [Bool.false_eq_true, if_false] at h1 ⊢
      exact h1
    · simp only [ht] at h1
      simp only [if_true] at h1 ⊢
      rw [h1]; rfl
  refine ⟨_, e, by rw [rev?_length, h2, h.shape], fun mu hmu => ?_⟩
  rw [h.shape] at hmu ⊢
  simp only []
  have := h3 (if D.transpose then D.shape.length - 1 - 1 - mu else mu) (by split <;> omega)
  rw [← rev?_getD' D.transpose (rev? D.transpose l) mu (by rw [rev?_length, h2]; exact hmu), rev?_rev?,
    rev?_length, h2]
  exact this

theorem sliceContr_T (X : Leaf K) (M : ND K) (a b : ℕ) : X.T.sliceContr M a b = X.sliceContr M a b := by
  cases X <;> rfl

/-- Slices of the contractions. -/
theorem contr_slice (env : Env K) (kind : DRMKind) {shape mn mx tr tr' a b : List ℕ} (t : Bool) (seed : ℕ)
    (raw : Option ℕ) (nnz : Option (List ℕ)) (h : RankData shape mn mx tr) (h' : RankData shape a b tr')
    (htr : (kind = .denseGaussian ∨ kind = .sparseGaussian) ∨ tr' = tr)
    (hle : ∀ k < shape.length - 1, mn.getD k 0 ≤ a.getD k 0 ∧ b.getD k 0 ≤ mx.getD k 0)
    {X : Leaf K}
    (hD : DRM.Accepts (⟨mkBase shape t seed mn mx tr,
      buildData env kind (mkBase shape t seed mn mx tr) raw nnz⟩ : DRM K) X)
    (hD' : DRM.Accepts (⟨mkBase shape t seed a b tr',
      buildData env kind (mkBase shape t seed a b tr') raw nnz⟩ : DRM K) X) :
    ∃ l l', DRM.sketch env ⟨mkBase shape t seed mn mx tr,
        buildData env kind (mkBase shape t seed mn mx tr) raw nnz⟩ X = .ok l ∧
      DRM.sketch env ⟨mkBase shape t seed a b tr',
        buildData env kind (mkBase shape t seed a b tr') raw nnz⟩ X = .ok l' ∧
      l.length = shape.length - 1 ∧ l'.length = shape.length - 1 ∧
      ∀ mu < shape.length - 1, l'.getD mu (ND.zeros [])
        = X.sliceContr (l.getD mu (ND.zeros [])) (a.getD mu 0 - mn.getD mu 0) (b.getD mu 0 - mn.getD mu 0) := by
  have hsh : X.shape = shape := hD.shape
  obtain ⟨l, e, hl, hc⟩ := contr_spec env hD
  obtain ⟨l', e', hl', hc'⟩ := contr_spec env hD'
  refine ⟨l, l', e, e', by rw [hl, hsh], by rw [hl', hsh], fun mu hmu => ?_⟩
  have c1 := hc mu (by rw [hsh]; exact hmu)
  have c2 := hc' mu (by rw [hsh]; exact hmu)
  simp only [] at c1 c2
  have ht1 : (mkBase shape t seed mn mx tr).transpose = t := rfl
  have ht2 : (mkBase shape t seed a b tr').transpose = t := rfl
  rw [ht1] at c1
  rw [ht2] at c2
  rw [hsh] at c1 c2
  set k := if t = true then shape.length - 1 - 1 - mu else mu with hk
  have hk' : k < shape.length - 1 := by rw [hk]; split <;> omega
  have g : ∀ l : List ℕ, l.length = shape.length - 1 → (rev? t l).getD k 0 = l.getD mu 0 := by
    intro l hl
    rw [hk, ← hl]
    exact rev?_getD' t l mu (by omega) 0
  have r1 : (mkBase shape t seed mn mx tr).rank.getD k 0 = mx.getD mu 0 - mn.getD mu 0 := by
    show (List.zipWith _ _ _).getD k 0 = _
    rw [zipWith_sub_getD _ _ _ (by rw [rev?_length, h.lmn]; exact hk') (by rw [rev?_length, h.lmx]; exact hk'),
      g _ h.lmn, g _ h.lmx]
  have r2 : (mkBase shape t seed a b tr').rank.getD k 0 = b.getD mu 0 - a.getD mu 0 := by
    show (List.zipWith _ _ _).getD k 0 = _
    rw [zipWith_sub_getD _ _ _ (by rw [rev?_length, h'.lmn]; exact hk') (by rw [rev?_length, h'.lmx]; exact hk'),
      g _ h'.lmn, g _ h'.lmx]
  have r1' : (DRMBase.rank (DRM.toDRMBase (⟨mkBase shape t seed mn mx tr,
      buildData env kind (mkBase shape t seed mn mx tr) raw nnz⟩ : DRM K))).getD k 0
        = mx.getD mu 0 - mn.getD mu 0 := r1
  have r2' : (DRMBase.rank (DRM.toDRMBase (⟨mkBase shape t seed a b tr',
      buildData env kind (mkBase shape t seed a b tr') raw nnz⟩ : DRM K))).getD k 0
        = b.getD mu 0 - a.getD mu 0 := r2
  rw [r1'] at c1
  rw [r2'] at c2
  obtain ⟨q1, q2⟩ := hle mu hmu
  have q3 := h'.le1 mu hmu
  have c3 := c1.slice (a := a.getD mu 0 - mn.getD mu 0) (b := b.getD mu 0 - mn.getD mu 0) (by omega)
  rw [show b.getD mu 0 - mn.getD mu 0 - (a.getD mu 0 - mn.getD mu 0) = b.getD mu 0 - a.getD mu 0 by omega] at c3
  have hTs : (if t = true then X.T else X).sliceContr = X.sliceContr := by
    split
    · funext M x y; exact sliceContr_T X M x y
    · rfl
  rw [hTs] at c3
  have hown : (if t = true then X.T else X).shape = (mkBase shape t seed mn mx tr).ownShape := by
    show _ = if t = true then shape.reverse else shape
    split
    · rw [Leaf.T_shape hD.valid, hsh]
    · exact hsh
  have hval : (if t = true then X.T else X).Valid := by
    split
    · exact Leaf.T_valid hD.valid
    · exact hD.valid
  have hol : (mkBase shape t seed mn mx tr).ownShape.length = shape.length := ownShape_length _
  refine c2.unique hval c3 (by omega) (by rw [hown, hol]; omega) fun p c hp hc => ?_
  rw [hown] at hp
  have m1 : (mkBase shape t seed mn mx tr).rankMin.getD k 0 = mn.getD mu 0 := g _ h.lmn
  have m2 : (mkBase shape t seed mn mx tr).rankMax.getD k 0 = mx.getD mu 0 := g _ h.lmx
  have m3 : (mkBase shape t seed mn mx tr).trueRank.getD k 0 = tr.getD mu 0 := g _ h.ltr
  have m4 : (mkBase shape t seed a b tr').rankMin.getD k 0 = a.getD mu 0 := g _ h'.lmn
  have m5 : (mkBase shape t seed a b tr').rankMax.getD k 0 = b.getD mu 0 := g _ h'.lmx
  have m6 : (mkBase shape t seed a b tr').trueRank.getD k 0 = tr'.getD mu 0 := g _ h'.ltr
  have := h.le2 mu hmu
  have := h'.le2 mu hmu
  exact entry_abs env kind (B := mkBase shape t seed mn mx tr) (B' := mkBase shape t seed a b tr') raw nnz
    rfl rfl rfl (htr.imp id fun e => by rw [e]; rfl) hk' hp (by rw [m1, m2]; omega) (by rw [m2, m3]; omega) (by rw [m4, m5]; omega)
    (by rw [m5, m6]; omega) (by rw [m4, m1]; omega)

end
end TTS
