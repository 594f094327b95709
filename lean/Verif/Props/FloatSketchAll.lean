import Verif.Proofs.FloatTucker
import Verif.Props.FloatSketch
import Verif.Props.TuckerSketch

/-!
# C86 for all formats, with any number of modes

`C86_sketch`, `C86_streaming` and `C86_history` leave out Tucker tensors and dense arrays with more than two
modes, because their sketches are not contractions of the dense tensor with the matrices of the right DRM
(`Leaf.sketchOf`).  Here nothing is left out.
-/

namespace TTS.Props

open TTS Finset TTS.Spec

theorem contOf_hasShape {sh lr rr : List ℕ} {P O : ℕ → List ℕ → ℝ} (hr : rr.length = sh.length - 1) :
    (contOf sh lr rr P O).HasShape sh lr rr := by
  refine ⟨rfl, rfl, rfl, by simp [contOf], by simp [contOf], fun mu hmu => ?_, fun mu hmu => ?_⟩
  · show ND.shape (((List.range sh.length).map _).getD mu _) = _
    rw [getD_map_range _ _ _ _ hmu]
    exact psiShape_eq hr hmu
  · show ND.shape (((List.range (sh.length - 1)).map _).getD mu _) = _
    rw [getD_map_range _ _ _ _ hmu]
    rfl

theorem approx_zero {C S M : Container ℝ} {p o : ℕ → ℕ} (k : C.Approx 0 p o S M) : C = S := by
  obtain ⟨⟨k1, k2, k3⟩, k4, k5, k6, k7, k8, k9⟩ := k
  have z : ∀ n, flErr 0 n = 0 := fun n => by simp [flErr]
  simp only [z, zero_mul] at k8 k9
  have aux : ∀ (a b : List (ND ℝ)), a.length = b.length →
      (∀ mu, (a.getD mu (ND.zeros [])).shape = (b.getD mu (ND.zeros [])).shape) →
      (∀ mu < b.length, ∀ i, |(a.getD mu (ND.zeros [])).get i - (b.getD mu (ND.zeros [])).get i| ≤ 0) → a = b := by
    intro a b h1 h2 h3
    apply List.ext_getElem h1
    intro n n1 n2
    have h2 := h2 n
    have h3 := h3 n n2
    rw [getD_eq n1, getD_eq n2] at h2 h3
    exact ND.ext' h2 fun i _ => sub_eq_zero.1 (abs_eq_zero.1 (le_antisymm (h3 i) (abs_nonneg _)))
  have e1 := aux _ _ k4 k6 k8
  have e2 := aux _ _ k5 k7 k9
  cases C; cases S
  simp only at k1 k2 k3 e1 e2
  rw [k1, k2, k3, e1, e2]

theorem contSum_all {env : Env ℝ} {l r : DRM ℝ} {sh : List ℕ} {ts : List (Leaf ℝ)}
    (hl : ∀ t ∈ ts, l.Accepts t ∧ r.Accepts t ∧ t.shape = sh ∧ t.Distinct)
    (hlt : l.transpose = false) (hrt : r.transpose = true) :
    (contSum env l r sh ts).IsSumOf (ts.map (Leaf.sketchOf env l r l.rank r.rank.reverse)) := by
  have e : ts.map (Leaf.sketchOf env l r l.rank r.rank.reverse) = ts.map fun t => contSum env l r sh [t] :=
    List.map_congr_left fun t ht => by
      obtain ⟨h1, h2, h3, h4⟩ := hl t ht
      have e1 := generalSketch_any (env := env) h1 h2 hlt hrt h4
      rw [streaming_sum h1.tensor h2.tensor hlt hrt] at e1
      injection e1 with e1
      rw [← e1, ← h3]; rfl
  rw [e]
  exact contSum_isSumOf ts

/-- **C86, all formats** and lazy sums of them, any number of modes: the sketch computed by `stream_sketch`
differs from the exact one by at most `(1+u)^n - 1` times the sum `M` over the summands of their sketches with
absolute values everywhere. -/
theorem C86_all {u : ℝ} (hu : 0 ≤ u) {env : Env ℝ} {X : Tensor ℝ} {lrank rrank : RankArg}
    {kw : SketchKw ℝ} {S : Sketched ℝ} (hkw : kw.Good) (hX : X.Valid) (hne : X.NonEmpty)
    (hd : 2 ≤ X.shape.length) (hdist : X.Distinct)
    (h : streamSketch env X lrank rrank kw = .ok S) {C : Container ℝ}
    (hC : FlGeneralSketch u env X S.left S.right C) :
    ∃ M : Container ℝ, M.HasShape X.shape S.leftRank S.rightRank ∧
      M.IsSumOf (X.summands.map (Leaf.absSketchOf env S.left S.right S.leftRank S.rightRank)) ∧
      C.Approx u (X.psiTotal S.left S.right) (X.omegaTotal S.left S.right) S.sketch M := by
  obtain ⟨hS, -⟩ := stream_inv hkw hX hne hd h
  obtain ⟨hl1, hr1⟩ := hS.accL.ranks hS.accR
  obtain ⟨psi, om, rfl, hn⟩ := flGeneral_cnear hu hS.accL hS.accR hS.dirL hS.dirR hC
  have hsh : ∀ t ∈ X.summands, t.shape = X.shape := fun t ht => by
    rw [(hS.accL.each t ht).shape, ← hS.accL.shape]
  refine ⟨absSum env S.left S.right X.shape X.summands, contOf_hasShape hr1, absSum_isSumOf (fun t ht => ⟨hS.accL.each t ht,
    hS.accR.each t ht, hsh t ht, Tensor.distinct_each hdist t ht⟩) hS.dirL hS.dirR, ?_⟩
  rw [hS.sketch]
  exact CNear.approx hl1 hr1 hn

/-- **C86, histories, all formats.** -/
theorem C86_all_history {u : ℝ} (hu : 0 ≤ u) {env : Env ℝ} {X : Tensor ℝ} {Ys : List (Tensor ℝ)} {l r : DRM ℝ}
    (hv : ∀ Y ∈ X :: Ys, l.AcceptsT Y ∧ r.AcceptsT Y ∧ Y.Distinct)
    (hlt : l.transpose = false) (hrt : r.transpose = true) {A B : Container ℝ}
    (hA : FlGeneralSketch u env X l r A) (hB : FlHistory u env l r A Ys B) :
    ∃ E M : Container ℝ, E.HasShape X.shape l.rank r.rank.reverse ∧ M.HasShape X.shape l.rank r.rank.reverse ∧
      E.IsSumOf (((X :: Ys).flatMap Tensor.summands).map (Leaf.sketchOf env l r l.rank r.rank.reverse)) ∧
      M.IsSumOf (((X :: Ys).flatMap Tensor.summands).map (Leaf.absSketchOf env l r l.rank r.rank.reverse)) ∧
      B.Approx u (fun mu => ((X :: Ys).map fun Y => Y.psiTotal l r mu).foldr max 0 + Ys.length)
        (fun mu => ((X :: Ys).map fun Y => Y.omegaTotal l r mu).foldr max 0 + Ys.length) E M := by
  obtain ⟨hlX, hrX, -⟩ := hv X (by simp)
  obtain ⟨hl1, hr1⟩ := hlX.ranks hrX
  have hshY : ∀ Y ∈ X :: Ys, Y.shape = X.shape := fun Y hY => by
    rw [(hv Y hY).1.shape, ← hlX.shape]
  obtain ⟨psi, om, rfl, hn⟩ := flGeneral_cnear hu hlX hrX hlt hrt hA
  have hp : ∀ Y ∈ X :: Ys, ∀ mu, Y.psiTotal l r mu ≤ ((X :: Ys).map fun Y => Y.psiTotal l r mu).foldr max 0 :=
    fun Y hY mu => le_foldr_max (List.mem_map_of_mem hY)
  have ho : ∀ Y ∈ X :: Ys, ∀ mu, Y.omegaTotal l r mu ≤ ((X :: Ys).map fun Y => Y.omegaTotal l r mu).foldr max 0 :=
    fun Y hY mu => le_foldr_max (List.mem_map_of_mem hY)
  have := flHistory_cnear (env := env) hu (sh := X.shape)
    (p := fun mu => ((X :: Ys).map fun Y => Y.psiTotal l r mu).foldr max 0)
    (o := fun mu => ((X :: Ys).map fun Y => Y.omegaTotal l r mu).foldr max 0)
    hlt hrt hl1 hr1 Ys X.summands 0 psi om B
    (fun Y hY => ⟨(hv Y (by simp [hY])).1, (hv Y (by simp [hY])).2.1, hshY Y (by simp [hY]),
      hp Y (by simp [hY]), ho Y (by simp [hY])⟩)
    (hn.mono hu (fun mu => hp X (by simp) mu) fun mu => ho X (by simp) mu) hB
  obtain ⟨psi', om', rfl, hh⟩ := this
  rw [show X.summands ++ Ys.flatMap Tensor.summands = (X :: Ys).flatMap Tensor.summands from
    (List.flatMap_cons ..).symm] at hh
  have each : ∀ t ∈ (X :: Ys).flatMap Tensor.summands,
      l.Accepts t ∧ r.Accepts t ∧ t.shape = X.shape ∧ t.Distinct := fun t ht => by
    obtain ⟨Y, hY, ht⟩ := List.mem_flatMap.1 ht
    obtain ⟨h1, h2, h3⟩ := hv Y hY
    refine ⟨h1.each t ht, h2.each t ht, ?_, Tensor.distinct_each h3 t ht⟩
    rw [(h1.each t ht).shape, ← hlX.shape]
  simp only [Nat.zero_add] at hh
  exact ⟨_, _, contOf_hasShape hr1, contOf_hasShape hr1, contSum_all each hlt hrt, absSum_isSumOf each hlt hrt,
    CNear.approx hl1 hr1 hh⟩

/-- With unit roundoff 0 the exact sketch is the only possible result, for all formats. -/
theorem C86_all_zero {env : Env ℝ} {X : Tensor ℝ} {l r : DRM ℝ}
    (hl : l.AcceptsT X) (hr : r.AcceptsT X) (hlt : l.transpose = false) (hrt : r.transpose = true) (C : Container ℝ) :
    FlGeneralSketch 0 env X l r C ↔ generalSketch env X (some l) r .streaming = .ok C := by
  refine ⟨fun h => ?_, C86_exact le_rfl⟩
  obtain ⟨hl1, hr1⟩ := hl.ranks hr
  obtain ⟨psi, om, rfl, hn⟩ := flGeneral_cnear le_rfl hl hr hlt hrt h
  rw [streaming_sum hl hr hlt hrt]
  exact congrArg _ (approx_zero (CNear.approx hl1 hr1 hn)).symm

/-- a lazy sum of a Tucker tensor and a dense array with three modes, and a tensor train -/
noncomputable def x86b : Tensor ℝ := .sum ⟨[1, 1, 1],
  [.tucker ⟨[eyeND 1, eyeND 1, eyeND 1], ND.ofFn [1, 1, 1] fun _ => -2⟩, .dense (ND.ofFn [1, 1, 1] fun _ => 3),
    .sparse ⟨[1, 1, 1], [([0, 0, 0], 5)]⟩]⟩

/-- the hypotheses of `C86_all` and `C86_all_history` -/
example {u : ℝ} (hu : 0 ≤ u) (env : Env ℝ) : ∃ (S : Sketched ℝ) (C B : Container ℝ),
    streamSketch env x86b (.int 1) (.int 2) {} = .ok S ∧ FlGeneralSketch u env x86b S.left S.right C ∧
    FlHistory u env S.left S.right C [x86b] B ∧ x86b.Valid ∧ x86b.NonEmpty ∧ 2 ≤ x86b.shape.length ∧
    (∀ Y ∈ [x86b, x86b], S.left.AcceptsT Y ∧ S.right.AcceptsT Y ∧ Y.Distinct) ∧ S.left.transpose = false ∧
    S.right.transpose = true := by
  have hv : x86b.Valid := by
    intro t ht
    simp only [List.mem_cons, List.not_mem_nil, or_false] at ht
    rcases ht with rfl | rfl | rfl
    · refine ⟨⟨?_, rfl⟩, rfl⟩
      intro U hU
      simp only [List.mem_cons, List.not_mem_nil, or_false] at hU
      rcases hU with rfl | rfl | rfl <;> exact ⟨1, 1, rfl⟩
    · exact ⟨trivial, rfl⟩
    · refine ⟨?_, rfl⟩
      intro e he
      simp only [List.mem_cons, List.not_mem_nil, or_false] at he
      subst he; simp
  have hd : x86b.Distinct := by
    intro t ht
    simp only [List.mem_cons, List.not_mem_nil, or_false] at ht
    rcases ht with rfl | rfl | rfl
    · trivial
    · trivial
    · simp [Leaf.Distinct, Sparse.Distinct]
  have hne : x86b.NonEmpty := by simp [Tensor.NonEmpty, x86b]
  obtain ⟨S, hS⟩ := C33_success env x86b (.int 1) (.int 2) none none none hv (by decide) rfl rfl
    (.inl (by decide)) (by decide) (fun t _ D hD => supports_tt D (by rcases hD with h | h <;> exact h) t)
  obtain ⟨hI, -⟩ := stream_inv (SketchKw.good_none _ _ _) hv hne (by decide) hS
  have e1 := streaming_sum (env := env) hI.accL hI.accR hI.dirL hI.dirR
  refine ⟨S, _, _, hS, C86_exact hu e1, ⟨_, ⟨_, C86_exact hu e1, containerAdd_exact hu _ _⟩, rfl⟩, hv, hne, by decide, ?_,
    hI.dirL, hI.dirR⟩
  intro Y hY
  have e : Y = x86b := by simpa using hY
  subst e
  exact ⟨hI.accL, hI.accR, hd⟩

end TTS.Props
