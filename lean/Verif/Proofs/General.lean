import Verif.Proofs.Right

/-! `general_sketch`, method `streaming`: reduction to Omega and Psi of the summands. -/

namespace TTS

open Finset

variable {K : Type*}

/-- result of `D.sketch`, `[]` if it raises -/
def DRM.sketchD [CommRing K] (env : Env K) (D : DRM K) (X : Leaf K) : List (ND K) :=
  match D.sketch env X with
  | .ok l => l
  | .error _ => []

section
variable [CommRing K]

theorem DRM.sketchD_ok {env : Env K} {D : DRM K} {X : Leaf K} {l : List (ND K)}
    (h : D.sketch env X = .ok l) : D.sketchD env X = l := by
  unfold DRM.sketchD; rw [h]

/-- the left contraction used at `mu` -/
def loAt (l : List (ND K)) (mu : ℕ) : Option (ND K) :=
  if 0 < mu then some (l.getD (mu - 1) (ND.zeros [])) else none

/-- the right contraction used at `mu` -/
def roAt (l : List (ND K)) (d mu : ℕ) : Option (ND K) :=
  if mu < d - 1 then some (l.getD mu (ND.zeros [])) else none

/-- shape of `Psi[mu]` -/
def psiShape (sh lr rr : List ℕ) (mu : ℕ) : List ℕ :=
  [if 0 < mu then lr.getD (mu - 1) 0 else 1, sh.getD mu 0,
    if mu < sh.length - 1 then rr.getD mu 0 else 1]

theorem psiShape_eq {sh lr rr : List ℕ} (hr : rr.length = sh.length - 1) {mu : ℕ} (hmu : mu < sh.length) :
    psiShape sh lr rr mu = [(1 :: lr).getD mu 0, sh.getD mu 0, (rr ++ [1]).getD mu 0] := by
  unfold psiShape
  congr 1
  · cases mu <;> simp
  · congr 2
    split_ifs with h
    · rw [List.getD_append _ _ _ _ (by omega)]
    · rw [List.getD_append_right _ _ _ _ (by omega), show mu - rr.length = 0 by omega]; rfl

/-- The Omega matrices `O` and Psi cores `P` of one tensor. -/
structure Parts (env : Env K) (l r : DRM K) (sh : List ℕ) (t : Leaf K) (O P : ℕ → ND K) : Prop where
  shape : t.shape = sh
  left : l.sketch env t = .ok (l.sketchD env t)
  right : r.sketch env t = .ok (r.sketchD env t)
  om : ∀ mu < sh.length - 1, omegaLeaf t mu ((l.sketchD env t).getD mu (ND.zeros []))
    ((r.sketchD env t).getD mu (ND.zeros [])) = O mu
  psi : ∀ mu < sh.length, psiLeaf t mu (psiShape sh l.rank r.rank.reverse mu)
    (loAt (l.sketchD env t) mu) (roAt (r.sketchD env t) sh.length mu) = .ok (P mu)

theorem generalSketch_leaf {env : Env K} {l r : DRM K} {t : Leaf K} {O P : ℕ → ND K}
    (h : Parts env l r t.shape t O P) :
    generalSketch env (.leaf t) (some l) r .streaming
      = .ok (Container.ofCores ((List.range t.shape.length).map P)
          ((List.range (t.shape.length - 1)).map O)) := by
  unfold generalSketch
  simp only [DRM.contr, h.left, h.right, Except.map, Except.andThen]
  have e1 : omegas (.leaf t) l.rank r.rank.reverse [l.sketchD env t] [r.sketchD env t]
      = .ok ((List.range (t.shape.length - 1)).map O) := by
    unfold omegas
    refine mapM_ok fun mu hmu => ?_
    rw [← h.om mu (List.mem_range.1 hmu)]
    rfl
  have e2 : psisStream (.leaf t) l.rank r.rank.reverse [l.sketchD env t] [r.sketchD env t]
      = .ok ((List.range t.shape.length).map P) := by
    unfold psisStream
    refine mapM_ok fun mu hmu => ?_
    rw [← h.psi mu (List.mem_range.1 hmu)]
    show psiLeaf t mu _ _ _ = _
    congr 1
    · unfold loAt
      split_ifs <;> rfl
    · unfold roAt
      show List.headD (if mu < t.shape.length - 1 then _ else _) none = _
      split_ifs <;> rfl
  rw [e1, e2]

theorem foldlM_iadd {α : Type*} (f : α → ND K) (sh : List ℕ) : ∀ (l : List α) (Z : ND K),
    Z.shape = sh → (∀ x ∈ l, (f x).shape = sh) →
    l.foldlM (fun acc x => acc.iadd (f x)) Z
      = (.ok (l.foldl (fun acc x => acc.add (f x)) Z) : Except PyErr (ND K))
  | [], _, _, _ => rfl
  | x :: l, Z, hZ, h => by
    rw [List.foldlM_cons, List.foldl_cons]
    have h1 : Z.iadd (f x) = .ok (Z.add (f x)) := by
      unfold ND.iadd; rw [if_pos (by rw [hZ, h x (by simp)])]
    rw [h1]
    exact foldlM_iadd f sh l _ (by rw [← hZ]; rfl) fun y hy => h y (by simp [hy])

theorem foldlM_congr {α β ε : Type*} {f g : β → α → Except ε β} : ∀ {l : List α},
    (∀ x ∈ l, ∀ b, f b x = g b x) → ∀ b, l.foldlM f b = l.foldlM g b
  | [], _, _ => rfl
  | x :: l, h, b => by
    rw [List.foldlM_cons, List.foldlM_cons, h x (by simp)]
    congr 1
    funext c
    exact foldlM_congr (fun y hy => h y (by simp [hy])) c

theorem zip_map_map {α β γ : Type*} (f : α → β) (g : α → γ) (l : List α) :
    l.zip ((l.map f).zip (l.map g)) = l.map fun x => (x, f x, g x) := by
  induction l with
  | nil => rfl
  | cons a l ih => simp [ih]

theorem DRM.contr_sum {env : Env K} {D : DRM K} {X : TSum K}
    (h : ∀ t ∈ X.tensors, D.sketch env t = .ok (D.sketchD env t)) :
    D.contr env (.sum X) = .ok (X.tensors.map (D.sketchD env)) := by
  unfold DRM.contr
  have : X.tensors.all (fun t => D.data.supports t) = true := by
    rw [List.all_eq_true]
    intro t ht
    by_contra hc
    have := h t ht
    unfold DRM.sketch at this
    rw [if_pos (by simpa using hc)] at this
    cases this
  simp only [this, if_true]
  exact mapM_ok h

theorem generalSketch_sum {env : Env K} {l r : DRM K} {X : TSum K} {O P : Leaf K → ℕ → ND K}
    (h : ∀ t ∈ X.tensors, Parts env l r X.shape t (O t) (P t))
    (hO : ∀ t ∈ X.tensors, ∀ mu < X.shape.length - 1,
      (O t mu).shape = [l.rank.getD mu 0, r.rank.reverse.getD mu 0])
    (hP : ∀ t ∈ X.tensors, ∀ mu < X.shape.length,
      (P t mu).shape = psiShape X.shape l.rank r.rank.reverse mu) :
    generalSketch env (.sum X) (some l) r .streaming
      = .ok (Container.ofCores
          ((List.range X.shape.length).map fun mu => X.tensors.foldl (fun acc t => acc.add (P t mu))
            (ND.zeros (psiShape X.shape l.rank r.rank.reverse mu)))
          ((List.range (X.shape.length - 1)).map fun mu =>
            X.tensors.foldl (fun acc t => acc.add (O t mu))
              (ND.zeros [l.rank.getD mu 0, r.rank.reverse.getD mu 0]))) := by
  unfold generalSketch
  simp only [DRM.contr_sum fun t ht => (h t ht).left, DRM.contr_sum fun t ht => (h t ht).right,
    Except.andThen]
  have e1 : omegas (.sum X) l.rank r.rank.reverse (X.tensors.map (l.sketchD env))
      (X.tensors.map (r.sketchD env)) = .ok ((List.range (X.shape.length - 1)).map fun mu =>
            X.tensors.foldl (fun acc t => acc.add (O t mu))
              (ND.zeros [l.rank.getD mu 0, r.rank.reverse.getD mu 0])) := by
    unfold omegas
    refine mapM_ok fun mu hmu => ?_
    have hmu := List.mem_range.1 hmu
    show List.foldlM _ _ (X.tensors.zip ((pick _ mu).zip (pick _ mu))) = _
    unfold pick
    rw [List.map_map, List.map_map, zip_map_map, List.foldlM_map]
    rw [foldlM_congr (g := fun acc t => acc.iadd (O t mu)) fun t ht b => by
      simp only [Function.comp]; rw [(h t ht).om mu hmu]]
    exact foldlM_iadd _ _ _ _ rfl fun t ht => hO t ht mu hmu
  have e2 : psisStream (.sum X) l.rank r.rank.reverse (X.tensors.map (l.sketchD env))
      (X.tensors.map (r.sketchD env)) = .ok ((List.range X.shape.length).map fun mu =>
        X.tensors.foldl (fun acc t => acc.add (P t mu))
            (ND.zeros (psiShape X.shape l.rank r.rank.reverse mu))) := by
    unfold psisStream
    refine mapM_ok fun mu hmu => ?_
    have hmu := List.mem_range.1 hmu
    have hmu' : mu < X.shape.length := hmu
    have el : (if 0 < mu then (pick (X.tensors.map (l.sketchD env)) (mu - 1)).map some
        else List.replicate (Tensor.sum X).parts none)
        = X.tensors.map fun t => loAt (l.sketchD env t) mu := by
      unfold loAt
      split_ifs
      · unfold pick; simp [Function.comp_def]
      · simp [Tensor.parts, Tensor.summands, List.map_const']
    have er : (if mu < X.shape.length - 1 then (pick (X.tensors.map (r.sketchD env)) mu).map some
        else List.replicate (Tensor.sum X).parts none)
        = X.tensors.map fun t => roAt (r.sketchD env t) X.shape.length mu := by
      unfold roAt
      split_ifs
      · unfold pick; simp [Function.comp_def]
      · simp [Tensor.parts, Tensor.summands, List.map_const']
    show psiT (.sum X) mu (psiShape X.shape l.rank r.rank.reverse mu)
      (if 0 < mu then (pick (X.tensors.map (l.sketchD env)) (mu - 1)).map some
        else List.replicate (Tensor.sum X).parts none)
      (if mu < X.shape.length - 1 then (pick (X.tensors.map (r.sketchD env)) mu).map some
        else List.replicate (Tensor.sum X).parts none) = _
    rw [el, er]
    show List.foldlM _ _ (X.tensors.zip _) = _
    rw [zip_map_map, List.foldlM_map]
    rw [foldlM_congr (g := fun acc t => acc.iadd (P t mu)) fun t ht b => by
      simp only []; rw [(h t ht).psi mu hmu']]
    exact foldlM_iadd _ _ _ _ rfl fun t ht => hP t ht mu hmu'
  rw [e1, e2]

/-! ### inferred shapes and ranks -/

theorem ofCores_eq {psi omega : List (ND K)} {sh lr rr : List ℕ} (hl : lr.length = sh.length - 1)
    (hr : rr.length = sh.length - 1) (hp : psi.length = sh.length)
    (h : ∀ mu < sh.length, (psi.getD mu (ND.zeros [])).shape = psiShape sh lr rr mu) :
    Container.ofCores psi omega = ⟨psi, omega, sh, lr, rr⟩ := by
  unfold Container.ofCores
  have hg : ∀ mu (h' : mu < psi.length), psi[mu].shape = psiShape sh lr rr mu := by
    intro mu h'
    rw [← getD_eq h' (ND.zeros [])]
    exact h mu (by omega)
  congr 1
  · apply List.ext_getElem (by simp [hp])
    intro i h1 h2
    simp only [List.getElem_map, ND.dim, hg i (by simpa using h1), psiShape]
    exact getD_eq h2 0
  · apply List.ext_getElem (by simp [hp, hl])
    intro i h1 h2
    have h3 : i + 1 < psi.length := by simp at h1; omega
    simp only [List.getElem_map, List.getElem_tail, ND.dim, hg (i + 1) h3, psiShape]
    show (if 0 < i + 1 then lr.getD (i + 1 - 1) 0 else 1) = _
    rw [if_pos (by omega)]
    exact getD_eq h2 0
  · apply List.ext_getElem (by simp [hp, hr])
    intro i h1 h2
    have h3 : i < psi.length := by simp at h1; omega
    simp only [List.getElem_map, List.getElem_dropLast, ND.dim, hg i h3, psiShape]
    show (if i < sh.length - 1 then rr.getD i 0 else 1) = _
    rw [if_pos (by omega)]
    exact getD_eq h2 0

end
end TTS
