import Verif.Proofs.Shapes

/-! The streaming sketch of a lazy sum, summand by summand. -/

namespace TTS

open Finset

variable {K : Type*} [CommRing K]

/-- Omega of one tensor -/
def oSk (env : Env K) (l r : DRM K) (t : Leaf K) (mu : ℕ) : ND K :=
  omegaLeaf t mu ((l.sketchD env t).getD mu (ND.zeros [])) ((r.sketchD env t).getD mu (ND.zeros []))

/-- Psi of one tensor -/
def pSk (env : Env K) (l r : DRM K) (t : Leaf K) (mu : ℕ) : ND K :=
  match psiLeaf t mu (psiShape t.shape l.rank r.rank.reverse mu) (loAt (l.sketchD env t) mu)
    (roAt (r.sketchD env t) t.shape.length mu) with
  | .ok P => P
  | .error _ => ND.zeros []

theorem parts_sk {env : Env K} {l r : DRM K} {X : Leaf K} (hl : l.Accepts X) (hr : r.Accepts X)
    (hlt : l.transpose = false) (hrt : r.transpose = true) :
    Parts env l r X.shape X (oSk env l r X) (pSk env l r X) ∧
      (∀ mu < X.shape.length - 1,
        (oSk env l r X mu).shape = [l.rank.getD mu 0, r.rank.reverse.getD mu 0]) ∧
      (∀ mu < X.shape.length, (pSk env l r X mu).shape = psiShape X.shape l.rank r.rank.reverse mu) := by
  obtain ⟨O, P, h, hO, hP⟩ := parts_exist (env := env) hl hr hlt hrt
  have e1 : ∀ mu < X.shape.length - 1, oSk env l r X mu = O mu := fun mu hmu => h.om mu hmu
  have e2 : ∀ mu < X.shape.length, pSk env l r X mu = P mu := by
    intro mu hmu
    unfold pSk
    rw [h.psi mu hmu]
  refine ⟨⟨rfl, h.left, h.right, fun mu hmu => rfl, fun mu hmu => ?_⟩, fun mu hmu => ?_, fun mu hmu => ?_⟩
  · rw [e2 mu hmu]; exact h.psi mu hmu
  · rw [e1 mu hmu]; exact hO mu hmu
  · rw [e2 mu hmu]; exact hP mu hmu

/-- the container with given entries -/
def contOf (sh lr rr : List ℕ) (P O : ℕ → List ℕ → K) : Container K :=
  ⟨(List.range sh.length).map fun mu => ND.ofFn (psiShape sh lr rr mu) (P mu),
   (List.range (sh.length - 1)).map fun mu => ND.ofFn [lr.getD mu 0, rr.getD mu 0] (O mu), sh, lr, rr⟩

/-- the sum of the sketches of a list of tensors -/
def contSum (env : Env K) (l r : DRM K) (sh : List ℕ) (ts : List (Leaf K)) : Container K :=
  contOf sh l.rank r.rank.reverse (fun mu i => (ts.map fun t => (pSk env l r t mu).get i).sum)
    (fun mu i => (ts.map fun t => (oSk env l r t mu).get i).sum)

theorem ofCores_contOf {sh lr rr : List ℕ} {P O : ℕ → List ℕ → K}
    (hl : lr.length = sh.length - 1) (hr : rr.length = sh.length - 1) :
    Container.ofCores ((List.range sh.length).map fun mu => ND.ofFn (psiShape sh lr rr mu) (P mu))
      ((List.range (sh.length - 1)).map fun mu => ND.ofFn [lr.getD mu 0, rr.getD mu 0] (O mu))
      = contOf sh lr rr P O :=
  ofCores_eq hl hr (by simp) (fun mu hmu => by rw [getD_map_range _ _ _ _ hmu]; rfl)

theorem contOf_congr {sh lr rr : List ℕ} {P O P' O' : ℕ → List ℕ → K}
    (hP : ∀ mu i, mu < sh.length → InR (psiShape sh lr rr mu) i → P mu i = P' mu i)
    (hO : ∀ mu i, mu < sh.length - 1 → InR [lr.getD mu 0, rr.getD mu 0] i → O mu i = O' mu i) :
    contOf sh lr rr P O = contOf sh lr rr P' O' := by
  unfold contOf
  congr 1
  · refine List.map_congr_left fun mu hmu => ?_
    refine ND.ext' rfl fun i hi => ?_
    have hi' : InR (psiShape sh lr rr mu) i := hi
    rw [ND.ofFn_get hi', ND.ofFn_get hi']
    exact hP mu i (List.mem_range.1 hmu) hi'
  · refine List.map_congr_left fun mu hmu => ?_
    refine ND.ext' rfl fun i hi => ?_
    have hi' : InR [lr.getD mu 0, rr.getD mu 0] i := hi
    rw [ND.ofFn_get hi', ND.ofFn_get hi']
    exact hO mu i (List.mem_range.1 hmu) hi'

theorem foldl_add_spec {α : Type*} (f : α → ND K) (sh : List ℕ) : ∀ (l : List α) (Z : ND K),
    Z.shape = sh → (∀ x ∈ l, (f x).shape = sh) →
    (l.foldl (fun acc x => acc.add (f x)) Z).shape = sh ∧
    ∀ i, (l.foldl (fun acc x => acc.add (f x)) Z).get i = Z.get i + (l.map fun x => (f x).get i).sum
  | [], Z, hZ, _ => ⟨hZ, fun i => by simp⟩
  | x :: l, Z, hZ, h => by
    obtain ⟨h1, h2⟩ := foldl_add_spec f sh l (Z.add (f x)) (by simpa using hZ)
      fun y hy => h y (by simp [hy])
    refine ⟨h1, fun i => ?_⟩
    rw [List.foldl_cons, h2, ND.add_get _ _ (by rw [hZ, h x (by simp)])]
    simp [add_assoc]

theorem foldl_add_eq {α : Type*} (f : α → ND K) (sh : List ℕ) (l : List α)
    (h : ∀ x ∈ l, (f x).shape = sh) :
    l.foldl (fun acc x => acc.add (f x)) (ND.zeros sh)
      = ND.ofFn sh fun i => (l.map fun x => (f x).get i).sum := by
  obtain ⟨h1, h2⟩ := foldl_add_spec f sh l (ND.zeros sh) rfl h
  refine ND.ext' h1 fun i hi => ?_
  rw [h1] at hi
  rw [h2, ND.ofFn_get hi, ND.zeros_get, zero_add]

theorem DRM.AcceptsT.ranks {l r : DRM K} {X : Tensor K} (hl : l.AcceptsT X) (hr : r.AcceptsT X) :
    l.rank.length = X.shape.length - 1 ∧ r.rank.reverse.length = X.shape.length - 1 := by
  rw [List.length_reverse, hl.wf.rankLen, hr.wf.rankLen, ← hl.shape, ← hr.shape]
  exact ⟨rfl, rfl⟩

theorem DRM.AcceptsT.leaf {D : DRM K} {X : Leaf K} (h : D.AcceptsT (.leaf X)) : D.Accepts X :=
  h.each X (by simp [Tensor.summands])

theorem DRM.Accepts.tensor {D : DRM K} {X : Leaf K} (h : D.Accepts X) : D.AcceptsT (.leaf X) :=
  ⟨h.wf, h.shape, fun t ht => by
    have e : t = X := by simpa [Tensor.summands] using ht
    rw [e]; exact h⟩

/-- The streaming sketch is the sum over the summands. -/
theorem streaming_sum {env : Env K} {l r : DRM K} {X : Tensor K} (hl : l.AcceptsT X)
    (hr : r.AcceptsT X) (hlt : l.transpose = false) (hrt : r.transpose = true) :
    generalSketch env X (some l) r .streaming = .ok (contSum env l r X.shape X.summands) := by
  obtain ⟨hl1, hr1⟩ := hl.ranks hr
  cases X with
  | leaf X =>
    obtain ⟨h1, h2, h3⟩ := parts_sk (env := env) hl.leaf hr.leaf hlt hrt
    rw [generalSketch_leaf h1]
    congr 1
    unfold contSum
    rw [← ofCores_contOf hl1 hr1]
    congr 1
    · refine List.map_congr_left fun mu hmu => ?_
      have := h3 mu (List.mem_range.1 hmu)
      refine ND.ext' this fun i hi => ?_
      rw [this] at hi
      exact ((ND.ofFn_get hi).trans (by simp [Tensor.summands])).symm
    · refine List.map_congr_left fun mu hmu => ?_
      have := h2 mu (List.mem_range.1 hmu)
      refine ND.ext' this fun i hi => ?_
      rw [this] at hi
      exact ((ND.ofFn_get hi).trans (by simp [Tensor.summands])).symm
  | sum X =>
    have hsh : ∀ t ∈ X.tensors, t.shape = X.shape := fun t ht => by
      rw [(hl.each t ht).shape, ← hl.shape]; rfl
    have hp : ∀ t ∈ X.tensors, _ := fun t ht => parts_sk (env := env) (hl.each t ht) (hr.each t ht) hlt hrt
    rw [generalSketch_sum (O := oSk env l r) (P := pSk env l r)
      (fun t ht => by have := (hp t ht).1; rwa [hsh t ht] at this)
      (fun t ht => by have := (hp t ht).2.1; rwa [hsh t ht] at this)
      (fun t ht => by have := (hp t ht).2.2; rwa [hsh t ht] at this)]
    congr 1
    unfold contSum
    rw [← ofCores_contOf hl1 hr1]
    congr 1
    · refine List.map_congr_left fun mu hmu => ?_
      exact foldl_add_eq _ _ _ fun t ht => by
        have := (hp t ht).2.2; rw [hsh t ht] at this; exact this mu (List.mem_range.1 hmu)
    · refine List.map_congr_left fun mu hmu => ?_
      exact foldl_add_eq _ _ _ fun t ht => by
        have := (hp t ht).2.1; rw [hsh t ht] at this; exact this mu (List.mem_range.1 hmu)

/-! ### addition of containers -/

theorem contOf_add {sh lr rr : List ℕ} {P O P' O' : ℕ → List ℕ → K}
    (hl : lr.length = sh.length - 1) (hr : rr.length = sh.length - 1) :
    (contOf sh lr rr P O).add (contOf sh lr rr P' O')
      = contOf sh lr rr (fun mu i => P mu i + P' mu i) (fun mu i => O mu i + O' mu i) := by
  rw [← ofCores_contOf (P := fun mu i => P mu i + P' mu i) hl hr]
  unfold Container.add contOf
  congr 1
  · simp only [List.zipWith_map, List.zipWith_self]
    refine List.map_congr_left fun mu _ => ?_
    refine ND.ext' rfl fun i hi => ?_
    have hi' : InR (psiShape sh lr rr mu) i := hi
    rw [ND.add_get _ _ (by rfl), ND.ofFn_get hi', ND.ofFn_get hi', ND.ofFn_get hi']
  · simp only [List.zipWith_map, List.zipWith_self]
    refine List.map_congr_left fun mu _ => ?_
    refine ND.ext' rfl fun i hi => ?_
    have hi' : InR [lr.getD mu 0, rr.getD mu 0] i := hi
    rw [ND.add_get _ _ (by rfl), ND.ofFn_get hi', ND.ofFn_get hi', ND.ofFn_get hi']

theorem contSum_append {env : Env K} {l r : DRM K} {sh : List ℕ} (ts us : List (Leaf K))
    (hl : l.rank.length = sh.length - 1) (hr : r.rank.reverse.length = sh.length - 1) :
    (contSum env l r sh ts).add (contSum env l r sh us) = contSum env l r sh (ts ++ us) := by
  unfold contSum
  rw [contOf_add hl hr]
  congr 1 <;> funext mu i <;> simp

theorem contSum_perm {env : Env K} {l r : DRM K} {sh : List ℕ} {ts us : List (Leaf K)}
    (h : ts.Perm us) : contSum env l r sh ts = contSum env l r sh us := by
  unfold contSum
  congr 1 <;> funext mu i
  · exact (h.map _).sum_eq
  · exact (h.map _).sum_eq

theorem ofFn_zero (sh : List ℕ) : (ND.ofFn sh fun _ => (0 : K)) = ND.zeros sh := by
  refine ND.ext' rfl fun i hi => ?_
  rw [ND.ofFn_get (show InR sh i from hi), ND.zeros_get]

theorem contSum_nil {env : Env K} {l r : DRM K} {sh : List ℕ} (hd : 1 ≤ sh.length)
    (hl : l.rank.length = sh.length - 1) (hr : r.rank.reverse.length = sh.length - 1) :
    contSum env l r sh [] = Container.zero sh l.rank r.rank.reverse := by
  unfold contSum contOf Container.zero
  simp only [List.map_nil, List.sum_nil, ofFn_zero]
  generalize r.rank.reverse = rr at *
  generalize l.rank = lr at *
  congr 1
  · apply List.ext_getElem
    · simp; omega
    · intro i h1 h2
      have h1' : i < sh.length := by simpa using h1
      simp only [List.getElem_map, List.getElem_range, List.getElem_zipWith, List.getElem_zip]
      rw [psiShape_eq hr h1', getD_eq (by simp; omega), getD_eq h1', getD_eq (by simp; omega)]
  · apply List.ext_getElem
    · simp; omega
    · intro i h1 h2
      have h1' : i < sh.length - 1 := by simpa using h1
      simp only [List.getElem_map, List.getElem_range, List.getElem_zipWith]
      rw [getD_eq (by omega), getD_eq (by omega)]

/-- C33 for lazy sums. -/
theorem streaming_spec {env : Env K} {l r : DRM K} {X : Tensor K} (hX : X.Valid) (hl : l.AcceptsT X)
    (hr : r.AcceptsT X) (hlt : l.transpose = false) (hrt : r.transpose = true)
    (hd : X.Distinct) (hx : ∀ t ∈ X.summands, t.RightExact) :
    generalSketch env X (some l) r .streaming
      = .ok (sketchOf X.shape X.toNumpy.get (l.leftMats env) (r.rightMats env) l.rank r.rank.reverse) := by
  obtain ⟨hl1, hr1⟩ := hl.ranks hr
  rw [streaming_sum hl hr hlt hrt, ← ofCores_sketchOf hl1 hr1]
  congr 1
  rw [ofCores_contOf (P := fun mu i => psiSpec X.shape X.toNumpy.get (l.leftMats env) (r.rightMats env) mu
      (i.getD 0 0) (i.getD 1 0) (i.getD 2 0)) (O := fun mu i => omegaSpec X.shape X.toNumpy.get
        (l.leftMats env) (r.rightMats env) mu (i.getD 0 0) (i.getD 1 0)) hl1 hr1]
  have hsh : ∀ t ∈ X.summands, t.shape = X.shape := fun t ht => by
    rw [(hl.each t ht).shape, ← hl.shape]
  have hget : ∀ i, X.toNumpy.get i = (X.summands.map fun t => t.toNumpy.get i).sum := by
    intro i
    cases X with
    | leaf X => simp [Tensor.summands, Tensor.toNumpy]
    | sum X => exact TSum.toNumpy_get hX i
  have hdt : ∀ t ∈ X.summands, t.Distinct := by
    cases X with
    | leaf X => 
      intro t ht
      have e : t = X := by simpa [Tensor.summands] using ht
      rw [e]; exact hd
    | sum X => exact hd
  have hp : ∀ t ∈ X.summands, _ := fun t ht => parts_of (env := env) (hl.each t ht) (hr.each t ht) hlt hrt
    (hdt t ht) _ (right_spec env (hr.each t ht) hrt (hx t ht))
    (rightMats_last env (by rw [(hr.each t ht).shape]))
  have hO : ∀ t ∈ X.summands, ∀ mu < X.shape.length - 1, oSk env l r t mu
      = ND.ofFn [l.rank.getD mu 0, r.rank.reverse.getD mu 0] fun i =>
        omegaSpec X.shape t.toNumpy.get (l.leftMats env) (r.rightMats env) mu (i.getD 0 0) (i.getD 1 0) := by
    intro t ht mu hmu
    have := (hp t ht).om mu (by rw [hsh t ht]; exact hmu)
    rw [hsh t ht] at this
    exact this
  have hP : ∀ t ∈ X.summands, ∀ mu < X.shape.length, pSk env l r t mu
      = ND.ofFn (psiShape X.shape l.rank r.rank.reverse mu) fun i =>
        psiSpec X.shape t.toNumpy.get (l.leftMats env) (r.rightMats env) mu
          (i.getD 0 0) (i.getD 1 0) (i.getD 2 0) := by
    intro t ht mu hmu
    have := (hp t ht).psi mu (by rw [hsh t ht]; exact hmu)
    unfold pSk
    rw [this, hsh t ht]
  have sum_lin : ∀ (sh : List ℕ) (F : Leaf K → List ℕ → K),
      (X.summands.map fun t => sumIdx sh (F t)).sum = sumIdx sh fun p => (X.summands.map fun t => F t p).sum :=
    fun sh F => (sumIdx_list_sum sh _ fun i t => F t i).symm
  unfold contSum
  refine contOf_congr (fun mu i hmu hi => ?_) fun mu i hmu hi => ?_
  · rw [List.map_congr_left fun t ht => by rw [hP t ht mu hmu, ND.ofFn_get hi]]
    unfold psiSpec
    rw [sum_lin]
    refine sumIdx_congr fun p _ => ?_
    rw [sum_lin]
    refine sumIdx_congr fun q _ => ?_
    rw [hget, List.sum_map_mul_right, List.sum_map_mul_left]
  · rw [List.map_congr_left fun t ht => by rw [hO t ht mu hmu, ND.ofFn_get hi]]
    unfold omegaSpec
    rw [sum_lin]
    refine sumIdx_congr fun p _ => ?_
    rw [sum_lin]
    refine sumIdx_congr fun q _ => ?_
    rw [hget, List.sum_map_mul_right, List.sum_map_mul_left]

end TTS
