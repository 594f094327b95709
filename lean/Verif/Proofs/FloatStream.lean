import Verif.Proofs.FloatOwn
import Verif.Proofs.SketchSum

/-! The contractions with left and right DRMs in floating point arithmetic. -/

namespace TTS
open Finset ND

theorem DRM.absOwn_spec (env : Env ℝ) {D : DRM ℝ} (h : D.WF) {X : Leaf ℝ} (hX : X.Valid)
    (hs : X.shape = D.ownShape) (hsup : D.data.supports X = true)
    (hfull : NeedsFull D X → D.toDRMBase.Full) :
    ∃ m, D.absOwn env X = .ok m ∧ m.length = D.shape.length - 1 ∧ ∀ k < D.shape.length - 1,
      IsContrL X.abs (k + 1) (D.rank.getD k 0) (D.absEntry env k) (m.getD k (ND.zeros [])) := by
  have hash : (D.data = .gauss ∨ ∃ n, D.data = .sign n) →
      ∃ m, (D.sketchOwn env X).map (fun l => l.map ND.abs) = .ok m ∧ m.length = D.shape.length - 1 ∧
        ∀ k < D.shape.length - 1, IsContrL X.abs (k + 1) (D.rank.getD k 0)
          (fun p a => |D.entry env k p a|) (m.getD k (ND.zeros [])) := by
    intro hd
    obtain ⟨l, h1, h2, h3⟩ := sketchOwn_spec env h hX hs hsup hfull
    refine ⟨l.map ND.abs, by rw [h1]; rfl, by rw [List.length_map, h2], fun k hk => ?_⟩
    have hsp : ∃ S, X = .sparse S := by
      rcases hd with hd | ⟨n, hd⟩ <;> rw [hd] at hsup <;> cases X <;> first | exact ⟨_, rfl⟩ | cases hsup
    obtain ⟨S, rfl⟩ := hsp
    obtain ⟨c1, c2⟩ := h3 k hk
    rw [getD_map_lt _ _ k (by omega) (ND.zeros [])]
    refine ⟨?_, fun e he a ha => ?_⟩
    · rw [ND.abs_shape, c1]; simp [Sparse.abs, Sparse.nnz]
    · rw [ND.abs_get, c2 e (by simpa [Sparse.abs] using he) a ha]
      simp [Sparse.abs]
  have hfac : D.absOwn env X = D.abs.sketchOwn env X.abs →
      (∀ k < D.shape.length - 1, D.abs.entry env k = D.absEntry env k) →
      ∃ m, D.absOwn env X = .ok m ∧ m.length = D.shape.length - 1 ∧ ∀ k < D.shape.length - 1,
        IsContrL X.abs (k + 1) (D.rank.getD k 0) (D.absEntry env k) (m.getD k (ND.zeros [])) := by
    intro e hE
    obtain ⟨m, h1, h2, h3⟩ := sketchOwn_spec env (DRM.abs_wf h) (Leaf.abs_valid hX)
      (by rw [Leaf.abs_shape, hs]; rfl) (by rw [DRM.abs_supports]; exact hsup)
      (fun h' => hfull ((DRM.abs_needsFull D X).1 h'))
    refine ⟨m, e.trans h1, h2, fun k hk => ?_⟩
    rw [← hE k hk]
    exact h3 k hk
  have hdata := h.data_ok
  obtain ⟨B, data⟩ := D
  cases data with
  | gauss => exact hash (Or.inl rfl)
  | sign n => exact hash (Or.inr ⟨n, rfl⟩)
  | dense mats =>
    refine hfac rfl fun k hk => ?_
    funext p a
    show ((mats.map ND.abs).getD k (ND.zeros [])).get _ = |(mats.getD k (ND.zeros [])).get _|
    rw [getD_map_lt _ _ k (by rw [hdata.1]; exact hk) (ND.zeros []), ND.abs_get]
    rfl
  | tt cores =>
    refine hfac rfl fun k hk => ?_
    funext p a
    show ttVal ((cores.map ND.abs).take (k + 1)) p 0 _ = ttVal ((cores.take (k + 1)).map ND.abs) p 0 _
    rw [List.map_take]
    rfl

/-- result of `absSketch`, `[]` if it raises -/
def DRM.absD (env : Env ℝ) (D : DRM ℝ) (X : Leaf ℝ) : List (ND ℝ) :=
  match D.absSketch env X with
  | .ok l => l
  | .error _ => []

theorem DRM.absSketch_eq (env : Env ℝ) {D : DRM ℝ} {X : Leaf ℝ} (h : D.Accepts X) :
    D.absSketch env X = if D.transpose then (D.absOwn env X.T).map List.reverse else D.absOwn env X := by
  have e : D.sketch env X
      = if D.transpose then (D.sketchOwn env X.T).map List.reverse else D.sketchOwn env X := by
    unfold DRM.sketch
    rw [if_neg (by simp [h.supports]), if_neg (by simp [h.shape])]
  have e' : D.abs.sketch env X.abs
      = if D.transpose then (D.abs.sketchOwn env X.abs.T).map List.reverse else D.abs.sketchOwn env X.abs := by
    unfold DRM.sketch
    rw [if_neg (by simp [DRM.abs_supports, h.supports]), if_neg (by
      rw [Leaf.abs_shape, h.shape]; exact fun hc => hc rfl)]
    rfl
  rw [← Leaf.abs_T] at e'
  obtain ⟨B, data⟩ := D
  cases data with
  | gauss =>
    show (DRM.sketch env _ X).map _ = _
    rw [e]
    split_ifs
    · show _ = ((DRM.sketchOwn env _ X.T).map _).map _
      cases DRM.sketchOwn env (⟨B, .gauss⟩ : DRM ℝ) X.T with
      | ok l => simp [Except.map]
      | error l => rfl
    · rfl
  | sign n =>
    show (DRM.sketch env _ X).map _ = _
    rw [e]
    split_ifs
    · show _ = ((DRM.sketchOwn env _ X.T).map _).map _
      cases DRM.sketchOwn env (⟨B, .sign n⟩ : DRM ℝ) X.T with
      | ok l => simp [Except.map]
      | error l => rfl
    · rfl
  | dense m => exact e'
  | tt m => exact e'

/-- a left DRM -/
theorem left_near {u : ℝ} (hu : 0 ≤ u) (env : Env ℝ) {D : DRM ℝ} {X : Leaf ℝ} (h : D.Accepts X)
    (ht : D.transpose = false) :
    (∀ k < X.shape.length - 1, IsContrL X.abs (k + 1) (D.rank.getD k 0) (D.absLeftMats env (k + 1))
        ((D.absD env X).getD k (ND.zeros []))) ∧
    ∀ out, D.FlSketch u env X out → ∀ k < X.shape.length - 1,
      NN u (D.contrRounds X (k + 1)) (out.getD k (ND.zeros []))
        ((D.sketchD env X).getD k (ND.zeros [])) ((D.absD env X).getD k (ND.zeros [])) := by
  have hs : X.shape = D.ownShape := by rw [h.shape]; simp [DRMBase.ownShape, ht]
  obtain ⟨m, m1, m2, m3⟩ := DRM.absOwn_spec env h.wf h.valid hs h.supports h.full
  have em : D.absD env X = m := by
    unfold DRM.absD
    rw [DRM.absSketch_eq env h, if_neg (by simp [ht]), m1]
  rw [em]
  refine ⟨fun k hk => ?_, fun out hf k hk => ?_⟩
  · rw [h.shape] at hk
    have e : D.absLeftMats env (k + 1) = D.absEntry env k := by
      funext p a; simp [DRM.absLeftMats]
    rw [e]; exact m3 k hk
  · obtain ⟨_, _, hf⟩ := hf
    rw [if_neg (by simp [ht])] at hf
    obtain ⟨l, m', l1, m1', _, _, _, hn⟩ := sketchOwn_near hu env h.wf h.valid hs h.supports h.full hf
    have : m = m' := by have := m1.symm.trans m1'; injection this
    subst this
    have e : D.sketch env X = .ok l := by
      unfold DRM.sketch
      rw [if_neg (by simp [h.supports]), if_neg (by simp [h.shape]), if_neg (by simp [ht]), l1]
    rw [DRM.sketchD_ok e]
    rw [h.shape] at hk
    exact hn k hk

/-- a right DRM -/
theorem right_near {u : ℝ} (hu : 0 ≤ u) (env : Env ℝ) {D : DRM ℝ} {X : Leaf ℝ} (h : D.Accepts X)
    (ht : D.transpose = true) :
    (∀ mu < X.shape.length - 1, IsContrL X.abs.T (X.shape.length - (mu + 1)) (D.rank.reverse.getD mu 0)
        (D.absEntry env (D.shape.length - 1 - (mu + 1))) ((D.absD env X).getD mu (ND.zeros []))) ∧
    ∀ out, D.FlSketch u env X out → ∀ mu < X.shape.length - 1,
      NN u (D.contrRounds X.T (X.shape.length - (mu + 1))) (out.getD mu (ND.zeros []))
        ((D.sketchD env X).getD mu (ND.zeros [])) ((D.absD env X).getD mu (ND.zeros [])) := by
  have hs : X.T.shape = D.ownShape := by
    rw [Leaf.T_shape h.valid, h.shape]; simp [DRMBase.ownShape, ht]
  have hsup : D.data.supports X.T = true := by rw [supports_T]; exact h.supports
  have hful : NeedsFull D X.T → D.toDRMBase.Full := fun h' => h.full ((needsFull_T _ _).1 h')
  obtain ⟨m, m1, m2, m3⟩ := DRM.absOwn_spec env h.wf (Leaf.T_valid h.valid) hs hsup hful
  have em : D.absD env X = m.reverse := by
    unfold DRM.absD
    rw [DRM.absSketch_eq env h, if_pos ht, m1]
    rfl
  rw [em]
  have hlen : X.shape.length = D.shape.length := by rw [h.shape]
  have e1 : ∀ mu < X.shape.length - 1, X.shape.length - (mu + 1) = (D.shape.length - 1 - 1 - mu) + 1 := by
    intro mu hmu; omega
  refine ⟨fun mu hmu => ?_, fun out hf mu hmu => ?_⟩
  · rw [reverse_getD D.rank _ (by rw [h.wf.rankLen]; omega), reverse_getD m _ (by omega), h.wf.rankLen, m2,
      e1 mu hmu, show D.shape.length - 1 - (mu + 1) = D.shape.length - 1 - 1 - mu by omega, ← Leaf.abs_T]
    exact m3 _ (by omega)
  · obtain ⟨_, _, hf⟩ := hf
    rw [if_pos ht] at hf
    obtain ⟨o, hf, rfl⟩ := hf
    obtain ⟨l, m', l1, m1', l2, _, o2, hn⟩ := sketchOwn_near hu env h.wf (Leaf.T_valid h.valid) hs hsup hful hf
    have : m = m' := by have := m1.symm.trans m1'; injection this
    subst this
    have e : D.sketch env X = .ok l.reverse := by
      unfold DRM.sketch
      rw [if_neg (by simp [h.supports]), if_neg (by simp [h.shape]), if_pos ht, l1]
      rfl
    rw [DRM.sketchD_ok e, reverse_getD o _ (by omega), reverse_getD l _ (by omega), reverse_getD m _ (by omega),
      o2, l2, m2, e1 mu hmu]
    exact hn _ (by omega)

end TTS
