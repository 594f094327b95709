import Verif.Proofs.FloatGeneral

/-! The floating point sketch approximates the sketch. -/

namespace TTS
open Finset ND

section
variable {u : ℝ} {env : Env ℝ} {l r : DRM ℝ} {X : Leaf ℝ}

theorem abs_right_spec (hr : r.Accepts X) (hrt : r.transpose = true) (hx : X.RightExact) :
    ∀ mu < X.shape.length - 1, IsContrR X.abs (mu + 1) (r.rank.reverse.getD mu 0) (r.absRightMats env (mu + 1))
      ((r.absD env X).getD mu (ND.zeros [])) := by
  intro mu hmu
  have h1 := (right_near le_rfl env hr hrt).1 mu hmu
  have e : r.absRightMats env (mu + 1)
      = fun q b => r.absEntry env (r.shape.length - 1 - (mu + 1)) q.reverse b := by
    funext q b
    have := hr.shape
    unfold DRM.absRightMats
    rw [if_neg (by rw [← hr.shape]; omega)]
  rw [e]
  have hv := Leaf.abs_valid hr.valid
  have hd := hr.dim
  rw [← Leaf.abs_shape X] at h1 hmu hd
  cases X with
  | sparse X => exact right_sparse hv (by exact (by omega : mu + 1 ≤ (Leaf.sparse X).abs.shape.length)) h1
  | tt X => exact right_tt hv (by exact (by omega : mu + 1 < (Leaf.tt X).abs.shape.length)) h1
  | cp X => exact right_cp hv (by exact (by omega : mu + 1 ≤ (Leaf.cp X).abs.shape.length)) h1
  | dense X =>
    have hx' : X.abs.shape.length ≤ 2 := hx
    have hd : 2 ≤ X.abs.shape.length := hd
    have hmu' : mu < X.abs.shape.length - 1 := hmu
    exact right_dense_one (by omega) h1
  | tucker X =>
    have hx' : X.shape.length ≤ 2 := hx
    rw [← Tucker.abs_shape] at hx'
    have hd : 2 ≤ X.abs.shape.length := hd
    have hmu' : mu < X.abs.shape.length - 1 := hmu
    exact right_tucker (by omega) h1

theorem abs_right_spec_dense {X : ND ℝ} (hr : r.Accepts (.dense X)) (hrt : r.transpose = true) :
    ∀ mu < X.shape.length - 1, IsContrR (Leaf.dense X).abs (mu + 1) (r.rank.reverse.getD mu 0)
      (r.absRightMatsDense env (mu + 1)) ((r.absD env (.dense X)).getD mu (ND.zeros [])) := by
  intro mu hmu
  have h1 := (right_near le_rfl env hr hrt).1 mu hmu
  have hs : X.shape = r.shape := hr.shape
  have e : r.absRightMatsDense env (mu + 1)
      = fun q b => r.absEntry env (r.shape.length - 1 - (mu + 1))
        (unravel (X.shape.drop (mu + 1)).reverse (ravel (X.shape.drop (mu + 1)) q)) b := by
    funext q b
    unfold DRM.absRightMatsDense
    rw [if_neg (by rw [← hs]; omega), hs]
  rw [e]
  exact right_dense (X := X.abs) (by show _ ≤ X.shape.length; omega) h1

/-- one tensor -/
theorem abs_parts {X : Leaf ℝ} (hl : l.Accepts X) (hlt : l.transpose = false)
    (hd : X.Distinct) (R : Mats ℝ)
    (hR : ∀ mu < X.shape.length - 1, IsContrR X.abs (mu + 1) (r.rank.reverse.getD mu 0) (R (mu + 1))
        ((r.absD env X).getD mu (ND.zeros [])))
    (hR1 : R X.shape.length = fun _ _ => 1) :
    (∀ mu < X.shape.length - 1, aO env l r X mu
      = ND.ofFn [l.rank.getD mu 0, r.rank.reverse.getD mu 0] fun i =>
        omegaSpec X.shape X.abs.toNumpy.get (l.absLeftMats env) R mu (i.getD 0 0) (i.getD 1 0)) ∧
    (∀ mu < X.shape.length, aP env l r X mu
      = ND.ofFn (psiShape X.shape l.rank r.rank.reverse mu) fun i =>
        psiSpec X.shape X.abs.toNumpy.get (l.absLeftMats env) R mu (i.getD 0 0) (i.getD 1 0) (i.getD 2 0)) := by
  have l2 := (left_near le_rfl env hl hlt).1
  have hd2 := hl.dim
  have hv := Leaf.abs_valid hl.valid
  have hdd := Leaf.abs_distinct hd
  have hsh := Leaf.abs_shape X
  refine ⟨fun mu hmu => ?_, fun mu hmu => ?_⟩
  · unfold aO
    rw [omega_spec hv hdd (by rw [hsh]; omega) (l2 mu hmu) (hR mu hmu), hsh]
    rfl
  · have key := psi_spec (X := X.abs) (mu := mu) (lr := if 0 < mu then l.rank.getD (mu - 1) 0 else 1)
      (rr := if mu < X.shape.length - 1 then r.rank.reverse.getD mu 0 else 1)
      (lo := loAt (l.absD env X) mu) (ro := roAt (r.absD env X) X.shape.length mu)
      (L := l.absLeftMats env mu) (R := R (mu + 1)) hv hdd (by rw [hsh]; exact hd2) ⟨?_, ?_⟩
    · rw [hsh] at key
      unfold aP psiShape
      rw [key]
      rfl
    · rcases Nat.eq_zero_or_pos mu with h0 | h0
      · left; subst h0
        refine ⟨rfl, rfl, rfl, ?_⟩
        funext p a; simp [DRM.absLeftMats]
      · right
        refine ⟨h0, _, if_pos h0, ?_⟩
        have := l2 (mu - 1) (by omega)
        rw [show mu - 1 + 1 = mu by omega] at this
        rwa [if_pos h0]
    · rw [hsh]
      by_cases h1 : mu < X.shape.length - 1
      · right
        refine ⟨by omega, _, if_pos h1, ?_⟩
        rw [if_pos h1]
        exact hR mu h1
      · left
        have e : mu + 1 = X.shape.length := by omega
        refine ⟨e, if_neg h1, if_neg h1, ?_⟩
        rw [e]; exact hR1

theorem Tensor.abs_summands (X : Tensor ℝ) : X.abs.summands = X.summands.map Leaf.abs := by
  cases X <;> rfl

theorem Tensor.get_sum {K : Type*} [CommRing K] {X : Tensor K} (hX : X.Valid) (i : List ℕ) :
    X.toNumpy.get i = (X.summands.map fun t => t.toNumpy.get i).sum := by
  cases X with
  | leaf X => simp [Tensor.summands, Tensor.toNumpy]
  | sum X => exact TSum.toNumpy_get hX i

theorem Tensor.distinct_each {K : Type*} [CommRing K] {X : Tensor K} (hd : X.Distinct) : ∀ t ∈ X.summands, t.Distinct := by
  cases X with
  | leaf X =>
    intro t ht
    have e : t = X := by simpa [Tensor.summands] using ht
    rw [e]; exact hd
  | sum X => exact hd

/-- the sum of the sketches of absolute values is the sketch of the absolute values -/
theorem absSum_spec {X : Tensor ℝ} (hX : X.Valid) (hl : l.AcceptsT X) (hr : r.AcceptsT X)
    (hlt : l.transpose = false) (hd : X.Distinct) (R : Mats ℝ)
    (hR : ∀ t ∈ X.summands, ∀ mu < X.shape.length - 1, IsContrR t.abs (mu + 1) (r.rank.reverse.getD mu 0)
      (R (mu + 1)) ((r.absD env t).getD mu (ND.zeros [])))
    (hR1 : R X.shape.length = fun _ _ => 1) :
    absSum env l r X.shape X.summands
      = sketchOf X.shape X.abs.toNumpy.get (l.absLeftMats env) R l.rank r.rank.reverse := by
  obtain ⟨hl1, hr1⟩ := hl.ranks hr
  rw [← ofCores_sketchOf hl1 hr1]
  rw [ofCores_contOf (P := fun mu i => psiSpec X.shape X.abs.toNumpy.get (l.absLeftMats env) R mu
      (i.getD 0 0) (i.getD 1 0) (i.getD 2 0)) (O := fun mu i => omegaSpec X.shape X.abs.toNumpy.get
        (l.absLeftMats env) R mu (i.getD 0 0) (i.getD 1 0)) hl1 hr1]
  have hsh : ∀ t ∈ X.summands, t.shape = X.shape := fun t ht => by
    rw [(hl.each t ht).shape, ← hl.shape]
  have hget : ∀ i, X.abs.toNumpy.get i = (X.summands.map fun t => t.abs.toNumpy.get i).sum := by
    intro i
    rw [Tensor.get_sum (Tensor.abs_valid hX), Tensor.abs_summands, List.map_map]
    rfl
  have hdt := Tensor.distinct_each hd
  have hp : ∀ t ∈ X.summands, _ := fun t ht => abs_parts (env := env) (r := r) (hl.each t ht) hlt
    (hdt t ht) R (by rw [hsh t ht]; exact hR t ht) (by rw [hsh t ht]; exact hR1)
  have sum_lin : ∀ (sh : List ℕ) (F : Leaf ℝ → List ℕ → ℝ),
      (X.summands.map fun t => sumIdx sh (F t)).sum = sumIdx sh fun p => (X.summands.map fun t => F t p).sum :=
    fun sh F => (sumIdx_list_sum sh _ fun i t => F t i).symm
  unfold absSum
  refine contOf_congr (fun mu i hmu hi => ?_) fun mu i hmu hi => ?_
  · rw [List.map_congr_left fun t ht => by
      rw [(hp t ht).2 mu (by rw [hsh t ht]; exact hmu), hsh t ht, ND.ofFn_get hi]]
    unfold psiSpec
    rw [sum_lin]
    refine sumIdx_congr fun p _ => ?_
    rw [sum_lin]
    refine sumIdx_congr fun q _ => ?_
    rw [hget, List.sum_map_mul_right, List.sum_map_mul_left]
  · rw [List.map_congr_left fun t ht => by
      rw [(hp t ht).1 mu (by rw [hsh t ht]; exact hmu), hsh t ht, ND.ofFn_get hi]]
    unfold omegaSpec
    rw [sum_lin]
    refine sumIdx_congr fun p _ => ?_
    rw [sum_lin]
    refine sumIdx_congr fun q _ => ?_
    rw [hget, List.sum_map_mul_right, List.sum_map_mul_left]

/-! ### containers -/

/-- approximate containers, core by core -/
structure CNear (u : ℝ) (p o : ℕ → ℕ) (d : ℕ) (psi om : List (ND ℝ)) (S M : Container ℝ) : Prop where
  psiLen : psi.length = d
  omLen : om.length = d - 1
  psi : ∀ mu < d, NN u (p mu) (psi.getD mu (ND.zeros [])) (S.psi.getD mu (ND.zeros [])) (M.psi.getD mu (ND.zeros []))
  om : ∀ mu < d - 1, NN u (o mu) (om.getD mu (ND.zeros [])) (S.omega.getD mu (ND.zeros []))
    (M.omega.getD mu (ND.zeros []))

theorem map_congr_getD {α β γ : Type*} {f : α → γ} {g : β → γ} {l : List α} {m : List β} (h : l.length = m.length)
    (a : α) (b : β) (hk : ∀ k < l.length, f (l.getD k a) = g (m.getD k b)) : l.map f = m.map g := by
  apply List.ext_getElem (by simpa using h)
  intro k h1 h2
  have h1' : k < l.length := by simpa using h1
  have := hk k h1'
  rw [getD_eq h1', getD_eq (by omega)] at this
  simpa using this

theorem CNear.approx {p o : ℕ → ℕ} {sh lr rr : List ℕ} {P O : ℕ → List ℕ → ℝ} {M : Container ℝ}
    {psi om : List (ND ℝ)} (hl : lr.length = sh.length - 1) (hr : rr.length = sh.length - 1)
    (h : CNear u p o sh.length psi om (contOf sh lr rr P O) M) :
    (Container.ofCores psi om).Approx u p o (contOf sh lr rr P O) M := by
  have hp : ∀ mu < sh.length, (psi.getD mu (ND.zeros [])).shape = psiShape sh lr rr mu := by
    intro mu hmu
    rw [(h.psi mu hmu).shape.1]
    unfold contOf
    simp only
    rw [getD_map_range _ _ _ _ hmu]; rfl
  have hc := ofCores_eq (omega := om) hl hr h.psiLen hp
  have hpl : (contOf sh lr rr P O).psi.length = sh.length := by simp [contOf]
  have hol : (contOf sh lr rr P O).omega.length = sh.length - 1 := by simp [contOf]
  rw [hc]
  refine ⟨⟨rfl, rfl, rfl⟩, by rw [hpl]; exact h.psiLen, by rw [hol]; exact h.omLen, fun mu => ?_, fun mu => ?_,
    fun mu hmu i => ?_, fun mu hmu i => ?_⟩
  · by_cases hmu : mu < sh.length
    · exact (h.psi mu hmu).shape.1
    · show (psi.getD mu (ND.zeros [])).shape = _
      rw [List.getD_eq_default _ _ (by rw [h.psiLen]; omega), List.getD_eq_default _ _ (by rw [hpl]; omega)]
  · by_cases hmu : mu < sh.length - 1
    · exact (h.om mu hmu).shape.1
    · show (om.getD mu (ND.zeros [])).shape = _
      rw [List.getD_eq_default _ _ (by rw [h.omLen]; omega), List.getD_eq_default _ _ (by rw [hol]; omega)]
  · rw [hpl] at hmu
    exact ((h.psi mu hmu).2.2 i).1
  · rw [hol] at hmu
    exact ((h.om mu hmu).2.2 i).1

theorem CNear.mono (hu : 0 ≤ u) {p o p' o' : ℕ → ℕ} {d : ℕ} {psi om : List (ND ℝ)} {S M : Container ℝ}
    (h : CNear u p o d psi om S M) (hp : ∀ mu, p mu ≤ p' mu) (ho : ∀ mu, o mu ≤ o' mu) :
    CNear u p' o' d psi om S M :=
  ⟨h.psiLen, h.omLen, fun mu hmu => (h.psi mu hmu).mono hu (hp mu), fun mu hmu => (h.om mu hmu).mono hu (ho mu)⟩

theorem zipWith_getD {α β γ : Type*} (f : α → β → γ) {l : List α} {m : List β} {k : ℕ} (h1 : k < l.length)
    (h2 : k < m.length) (a : α) (b : β) (c : γ) : (List.zipWith f l m).getD k c = f (l.getD k a) (m.getD k b) := by
  rw [getD_eq (by simp; omega), getD_eq h1, getD_eq h2, List.getElem_zipWith]

theorem CNear.add (hu : 0 ≤ u) {p o : ℕ → ℕ} {sh lr rr : List ℕ} {P O P' O' MP MO MP' MO' : ℕ → List ℕ → ℝ}
    {psi om psi' om' : List (ND ℝ)} (hl : lr.length = sh.length - 1) (hr : rr.length = sh.length - 1)
    (h : CNear u p o sh.length psi om (contOf sh lr rr P O) (contOf sh lr rr MP MO))
    (h' : CNear u p o sh.length psi' om' (contOf sh lr rr P' O') (contOf sh lr rr MP' MO'))
    {C : Container ℝ} (hC : FlContainerAdd u (Container.ofCores psi om) (Container.ofCores psi' om') C) :
    ∃ psi'' om'', C = Container.ofCores psi'' om'' ∧
      CNear u (fun mu => p mu + 1) (fun mu => o mu + 1) sh.length psi'' om''
        ((contOf sh lr rr P O).add (contOf sh lr rr P' O')) ((contOf sh lr rr MP MO).add (contOf sh lr rr MP' MO')) := by
  obtain ⟨psi'', om'', h1, h2, rfl⟩ := hC
  have l1 := h1.length_eq
  have l2 := h2.length_eq
  have e1 : (Container.ofCores psi om).psi = psi := rfl
  have e2 : (Container.ofCores psi' om').psi = psi' := rfl
  have e3 : (Container.ofCores psi om).omega = om := rfl
  have e4 : (Container.ofCores psi' om').omega = om' := rfl
  rw [List.length_zip, e1, e2, h.psiLen, h'.psiLen, Nat.min_self] at l1
  rw [List.length_zip, e3, e4, h.omLen, h'.omLen, Nat.min_self] at l2
  refine ⟨psi'', om'', rfl, l1.symm, l2.symm, fun mu hmu => ?_, fun mu hmu => ?_⟩
  · have k := forall₂_getD h1 (k := mu) (by rw [List.length_zip, e1, e2, h.psiLen, h'.psiLen]; omega)
      (ND.zeros [], ND.zeros []) (ND.zeros [])
    rw [e1, e2, getD_eq (by rw [List.length_zip, h.psiLen, h'.psiLen]; omega), List.getElem_zip] at k
    simp only at k
    rw [← getD_eq _ (ND.zeros []), ← getD_eq _ (ND.zeros [])] at k
    have := NDNear.add hu (h.psi mu hmu) (h'.psi mu hmu) k
    rw [← pow_succ'] at this
    unfold Container.add
    simp only [Container.ofCores]
    rw [zipWith_getD _ (by simp [contOf]; omega) (by simp [contOf]; omega) (ND.zeros []) (ND.zeros []),
      zipWith_getD _ (by simp [contOf]; omega) (by simp [contOf]; omega) (ND.zeros []) (ND.zeros [])]
    exact this
  · have k := forall₂_getD h2 (k := mu) (by rw [List.length_zip, e3, e4, h.omLen, h'.omLen]; omega)
      (ND.zeros [], ND.zeros []) (ND.zeros [])
    rw [e3, e4, getD_eq (by rw [List.length_zip, h.omLen, h'.omLen]; omega), List.getElem_zip] at k
    simp only at k
    rw [← getD_eq _ (ND.zeros []), ← getD_eq _ (ND.zeros [])] at k
    have := NDNear.add hu (h.om mu hmu) (h'.om mu hmu) k
    rw [← pow_succ'] at this
    unfold Container.add
    simp only [Container.ofCores]
    rw [zipWith_getD _ (by simp [contOf]; omega) (by simp [contOf]; omega) (ND.zeros []) (ND.zeros []),
      zipWith_getD _ (by simp [contOf]; omega) (by simp [contOf]; omega) (ND.zeros []) (ND.zeros [])]
    exact this

/-- one sketch -/
theorem flGeneral_cnear (hu : 0 ≤ u) {X : Tensor ℝ} (hl : l.AcceptsT X) (hr : r.AcceptsT X)
    (hlt : l.transpose = false) (hrt : r.transpose = true) {C : Container ℝ}
    (h : FlGeneralSketch u env X l r C) :
    ∃ psi om, C = Container.ofCores psi om ∧ CNear u (X.psiTotal l r) (X.omegaTotal l r) X.shape.length psi om
      (contSum env l r X.shape X.summands) (absSum env l r X.shape X.summands) := by
  obtain ⟨psi, om, e, h1, h2, h3, h4⟩ := flGeneral_near hu hl hr hlt hrt h
  exact ⟨psi, om, e, h1, h2, h3, h4⟩

/-- a history of updates -/
theorem flHistory_cnear (hu : 0 ≤ u) {sh : List ℕ} {p o : ℕ → ℕ} (hlt : l.transpose = false) (hrt : r.transpose = true)
    (hl1 : l.rank.length = sh.length - 1) (hr1 : r.rank.reverse.length = sh.length - 1) :
    ∀ (Ys : List (Tensor ℝ)) (ts : List (Leaf ℝ)) (k : ℕ) (psi om : List (ND ℝ)) (B : Container ℝ),
    (∀ Y ∈ Ys, l.AcceptsT Y ∧ r.AcceptsT Y ∧ Y.shape = sh ∧ (∀ mu, Y.psiTotal l r mu ≤ p mu) ∧
      ∀ mu, Y.omegaTotal l r mu ≤ o mu) →
    CNear u (fun mu => p mu + k) (fun mu => o mu + k) sh.length psi om (contSum env l r sh ts)
      (absSum env l r sh ts) →
    FlHistory u env l r (Container.ofCores psi om) Ys B →
    ∃ psi' om', B = Container.ofCores psi' om' ∧
      CNear u (fun mu => p mu + (k + Ys.length)) (fun mu => o mu + (k + Ys.length)) sh.length psi' om'
        (contSum env l r sh (ts ++ Ys.flatMap Tensor.summands))
        (absSum env l r sh (ts ++ Ys.flatMap Tensor.summands))
  | [], ts, k, psi, om, B, _, hA, hf => by
    cases hf
    exact ⟨psi, om, rfl, by simpa using hA⟩
  | Y :: Ys, ts, k, psi, om, B, hY, hA, hf => by
    obtain ⟨A', ⟨S, hS, hadd⟩, hf⟩ := hf
    obtain ⟨y1, y2, y3, y4, y5⟩ := hY Y (by simp)
    obtain ⟨psi1, om1, rfl, hn⟩ := flGeneral_cnear hu y1 y2 hlt hrt hS
    rw [y3] at hn
    obtain ⟨psi2, om2, rfl, hn2⟩ := CNear.add hu hl1 hr1 hA
      (hn.mono hu (fun mu => (y4 mu).trans (Nat.le_add_right _ k)) fun mu => (y5 mu).trans (Nat.le_add_right _ k)) hadd
    have ea : (absSum env l r sh ts).add (absSum env l r sh Y.summands) = absSum env l r sh (ts ++ Y.summands) := by
      unfold absSum
      rw [contOf_add hl1 hr1]
      congr 1 <;> funext mu i <;> simp
    have ec := contSum_append (env := env) ts Y.summands hl1 hr1
    have hn3 : CNear u (fun mu => p mu + k + 1) (fun mu => o mu + k + 1) sh.length psi2 om2
      ((contSum env l r sh ts).add (contSum env l r sh Y.summands))
      ((absSum env l r sh ts).add (absSum env l r sh Y.summands)) := hn2
    rw [ea, ec] at hn3
    have := flHistory_cnear hu hlt hrt hl1 hr1 Ys (ts ++ Y.summands) (k + 1) psi2 om2 B
      (fun Y hY' => hY Y (by simp [hY'])) (by simpa only [Nat.add_assoc] using hn3) hf
    obtain ⟨psi', om', e, hh⟩ := this
    refine ⟨psi', om', e, ?_⟩
    rw [List.flatMap_cons, ← List.append_assoc, List.length_cons, show k + (Ys.length + 1) = k + 1 + Ys.length by omega]
    exact hh

end
end TTS
