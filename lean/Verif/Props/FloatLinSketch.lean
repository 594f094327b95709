import Verif.Props.FloatLin
import Verif.Props.FloatSketch

/-!
# C103, continued: sketches of computed tensor trains
-/

namespace TTS.Props

open Finset TTS.Spec

theorem absEntry_ge (env : Env ℝ) (D : DRM ℝ) (k : ℕ) (p : List ℕ) (a : ℕ) : |D.entry env k p a| ≤ D.absEntry env k p a := by
  unfold DRM.absEntry
  split
  · rename_i cores h
    unfold DRM.entry
    rw [h]
    have := (CN.rfl' (u := 0) (cores.take (k + 1))).ttVal_near le_rfl p 0 (D.rankMin.getD k 0 + a)
    exact this.2
  · exact le_rfl

theorem absLeftMats_ge (env : Env ℝ) (D : DRM ℝ) (k : ℕ) (p : List ℕ) (a : ℕ) :
    |D.leftMats env k p a| ≤ D.absLeftMats env k p a := by
  unfold DRM.leftMats DRM.absLeftMats
  split_ifs
  · simp
  · exact absEntry_ge env D _ _ _

theorem absRightMats_ge (env : Env ℝ) (D : DRM ℝ) (k : ℕ) (p : List ℕ) (a : ℕ) :
    |D.rightMats env k p a| ≤ D.absRightMats env k p a := by
  unfold DRM.rightMats DRM.absRightMats
  split_ifs
  · simp
  · exact absEntry_ge env D _ _ _

section
variable {q : ℝ} (hq : 1 ≤ q) {sh : List ℕ} {g f F : List ℕ → ℝ} {L R AL AR : Mats ℝ}
  (hf : ∀ i, Near q (g i) (f i) (F i)) (hL : ∀ k p a, |L k p a| ≤ AL k p a) (hR : ∀ k p a, |R k p a| ≤ AR k p a)
include hq hf hL hR

theorem factor_near (k l : ℕ) (p p' i : List ℕ) (a b : ℕ) :
    Near q (L k p a * g i * R l p' b) (L k p a * f i * R l p' b) (AL k p a * F i * AR l p' b) := by
  have h1 := Near.mul (p := 1) (q := q) le_rfl hq (Near.of_eq (hL k p a)) (hf i)
  rw [one_mul] at h1
  have h2 := Near.mul (p := q) (q := 1) hq le_rfl h1 (Near.of_eq (hR l p' b))
  rwa [mul_one] at h2

theorem psiSpec_near (mu a j b : ℕ) :
    Near q (psiSpec sh g L R mu a j b) (psiSpec sh f L R mu a j b) (psiSpec sh F AL AR mu a j b) := by
  unfold psiSpec
  exact Near.sumIdx _ fun p _ => Near.sumIdx _ fun p' _ => factor_near hq hf hL hR _ _ _ _ _ _ _

theorem omegaSpec_near (mu a b : ℕ) :
    Near q (omegaSpec sh g L R mu a b) (omegaSpec sh f L R mu a b) (omegaSpec sh F AL AR mu a b) := by
  unfold omegaSpec
  exact Near.sumIdx _ fun p _ => Near.sumIdx _ fun p' _ => factor_near hq hf hL hR _ _ _ _ _ _ _

end

theorem ofFn_approx {s : List ℕ} {x y z w : List ℕ → ℝ} {p q : ℝ} (hp : 1 ≤ p) {C : ND ℝ}
    (hC : ∀ i, |C.get i - (ND.ofFn s x).get i| ≤ (p - 1) * (ND.ofFn s y).get i)
    (h1 : ∀ i, Near q (x i) (z i) (w i)) (h2 : ∀ i, y i ≤ q * w i) (i : List ℕ) :
    |C.get i - (ND.ofFn s z).get i| ≤ (p * q - 1) * (ND.ofFn s w).get i := by
  have h := hC i
  rw [ND.ofFn_get', ND.ofFn_get'] at h
  rw [ND.ofFn_get', ND.ofFn_get']
  split_ifs at h ⊢
  · exact ((h1 i).trans h hp (h2 i)).1
  · simpa using h

theorem approx_trans {u : ℝ} (hu : 0 ≤ u) {n : ℕ} {p o : ℕ → ℕ} {C : Container ℝ} {sh lr rr : List ℕ}
    {g f F G H : List ℕ → ℝ} {L R AL AR : Mats ℝ}
    (hC : C.Approx u p o (sketchOf sh g L R lr rr) (sketchOf sh G AL AR lr rr))
    (hf : ∀ i, Near ((1 + u) ^ n) (g i) (f i) (F i)) (hG : ∀ i, Near ((1 + u) ^ n) (G i) (H i) (F i))
    (hL : ∀ k p a, |L k p a| ≤ AL k p a) (hR : ∀ k p a, |R k p a| ≤ AR k p a) :
    C.Approx u (fun mu => p mu + n) (fun mu => o mu + n) (sketchOf sh f L R lr rr) (sketchOf sh F AL AR lr rr) := by
  have hq := one_le_pow_u hu n
  have hAL : ∀ k p a, |AL k p a| ≤ AL k p a := fun k p a => (abs_of_nonneg ((abs_nonneg _).trans (hL k p a))).le
  have hAR : ∀ k p a, |AR k p a| ≤ AR k p a := fun k p a => (abs_of_nonneg ((abs_nonneg _).trans (hR k p a))).le
  have gp : ∀ (x : List ℕ → ℝ) (L R : Mats ℝ) (mu : ℕ), mu < sh.length → (sketchOf sh x L R lr rr).psi.getD mu (ND.zeros [])
      = ND.ofFn [(1 :: lr).getD mu 0, sh.getD mu 0, (rr ++ [1]).getD mu 0] fun i =>
        psiSpec sh x L R mu (i.getD 0 0) (i.getD 1 0) (i.getD 2 0) := by
    intro x L R mu h
    rw [List.getD_eq_getElem _ _ (by simpa [sketchOf] using h)]
    simp [sketchOf]
  have go : ∀ (x : List ℕ → ℝ) (L R : Mats ℝ) (mu : ℕ), mu < sh.length - 1 → (sketchOf sh x L R lr rr).omega.getD mu (ND.zeros [])
      = ND.ofFn [lr.getD mu 0, rr.getD mu 0] fun i => omegaSpec sh x L R mu (i.getD 0 0) (i.getD 1 0) := by
    intro x L R mu h
    rw [List.getD_eq_getElem _ _ (by simpa [sketchOf] using h)]
    simp [sketchOf]
  have lp : ∀ (x : List ℕ → ℝ) (L R : Mats ℝ), (sketchOf sh x L R lr rr).psi.length = sh.length := by
    intro x L R; simp [sketchOf]
  have lo : ∀ (x : List ℕ → ℝ) (L R : Mats ℝ), (sketchOf sh x L R lr rr).omega.length = sh.length - 1 := by
    intro x L R; simp [sketchOf]
  refine ⟨hC.shape, ?_, ?_, ?_, ?_, ?_, ?_⟩
  · rw [lp, ← lp g L R]; exact hC.psiLen
  · rw [lo, ← lo g L R]; exact hC.omegaLen
  · intro mu
    rw [hC.psiShape]
    by_cases h : mu < sh.length
    · rw [gp _ _ _ _ h, gp _ _ _ _ h]; rfl
    · rw [List.getD_eq_default _ _ (by rw [lp]; omega), List.getD_eq_default _ _ (by rw [lp]; omega)]
  · intro mu
    rw [hC.omegaShape]
    by_cases h : mu < sh.length - 1
    · rw [go _ _ _ _ h, go _ _ _ _ h]; rfl
    · rw [List.getD_eq_default _ _ (by rw [lo]; omega), List.getD_eq_default _ _ (by rw [lo]; omega)]
  · intro mu h i
    have k := hC.psi mu (by rw [lp]; rwa [lp] at h)
    rw [lp] at h
    rw [gp _ _ _ _ h, gp _ _ _ _ h] at k ⊢
    unfold flErr at k ⊢
    rw [pow_add]
    exact ofFn_approx (one_le_pow_u hu _) k (fun i => psiSpec_near hq hf hL hR _ _ _ _)
      (fun i => (le_abs_self _).trans (psiSpec_near hq hG hAL hAR _ _ _ _).abs_le) i
  · intro mu h i
    have k := hC.omega mu (by rw [lo]; rwa [lo] at h)
    rw [lo] at h
    rw [go _ _ _ _ h, go _ _ _ _ h] at k ⊢
    unfold flErr at k ⊢
    rw [pow_add]
    exact ofFn_approx (one_le_pow_u hu _) k (fun i => omegaSpec_near hq hf hL hR _ _ _)
      (fun i => (le_abs_self _).trans (omegaSpec_near hq hG hAL hAR _ _ _).abs_le) i

/-- **C103, sketches.** The streaming sketch, in floating point arithmetic, of the result of a program approximates the exact
sketch of the exact result, with the sketch of the program on absolute values and the DRMs of absolute values as the size of
the error. -/
theorem C103_sketch {u : ℝ} (hu : 0 ≤ u) {env : Env ℝ} {e : TTExpr} (he : e.Valid) {Y : TT ℝ} (hY : e.FlEval u Y)
    {l r : DRM ℝ} (hl : l.Accepts (.tt Y)) (hr : r.Accepts (.tt Y)) (hlt : l.transpose = false) (hrt : r.transpose = true)
    {C : Container ℝ} (h : FlGeneralSketch u env (.leaf (.tt Y)) l r C) :
    C.Approx u (fun mu => Leaf.psiTotal l r (.tt Y) mu + e.rounds) (fun mu => Leaf.omegaTotal l r (.tt Y) mu + e.rounds)
      (sketchOf e.shape e.entry (l.leftMats env) (r.rightMats env) l.rank r.rank.reverse)
      (sketchOf e.shape e.abs.entry (l.absLeftMats env) (r.absRightMats env) l.rank r.rank.reverse) := by
  obtain ⟨hv, hs, _, hn⟩ := ttExpr_result hu he hY
  have s1 : ∀ D : DRM ℝ, D.Accepts (.tt Y) → D.AcceptsT (.leaf (.tt Y)) := fun D hD =>
    ⟨hD.wf, hD.shape, fun t ht => by
      rw [show (Tensor.leaf (.tt Y)).summands = [Leaf.tt Y] from rfl, List.mem_singleton] at ht
      subst ht; exact hD⟩
  have k := C86_sketch hu (X := .leaf (.tt Y)) hv (s1 l hl) (s1 r hr) hlt hrt trivial (fun t ht => by
    rw [show (Tensor.leaf (.tt Y)).summands = [Leaf.tt Y] from rfl, List.mem_singleton] at ht
    subst ht; trivial) h
  rw [show (Tensor.leaf (.tt Y)).shape = e.shape from hs] at k
  exact approx_trans hu k (fun i => (hn i).1) (fun i => (hn i).2) (absLeftMats_ge env l) (absRightMats_ge env r)

/-- **C103, stream_sketch.** The same for `stream_sketch` of the result, with given or created DRMs. -/
theorem C103_streaming {u : ℝ} (hu : 0 ≤ u) {env : Env ℝ} {e : TTExpr} (he : e.Valid) (hd : 2 ≤ e.shape.length) {Y : TT ℝ}
    (hY : e.FlEval u Y) {lrank rrank : RankArg} {kw : SketchKw ℝ} {S : Sketched ℝ} (hkw : kw.Good)
    (h : streamSketch env (.leaf (.tt Y)) lrank rrank kw = .ok S) {C : Container ℝ}
    (hC : FlGeneralSketch u env (.leaf (.tt Y)) S.left S.right C) :
    C.Approx u (fun mu => Leaf.psiTotal S.left S.right (.tt Y) mu + e.rounds)
      (fun mu => Leaf.omegaTotal S.left S.right (.tt Y) mu + e.rounds)
      (sketchOf e.shape e.entry (S.left.leftMats env) (S.right.rightMats env) S.leftRank S.rightRank)
      (sketchOf e.shape e.abs.entry (S.left.absLeftMats env) (S.right.absRightMats env) S.leftRank S.rightRank) := by
  obtain ⟨hv, hs, _, _⟩ := ttExpr_result hu he hY
  obtain ⟨hI, -⟩ := stream_inv hkw (X := .leaf (.tt Y)) hv trivial (by
    show 2 ≤ Y.shape.length
    rw [hs]; exact hd) h
  have m : Leaf.tt Y ∈ (Tensor.leaf (.tt Y)).summands := List.mem_singleton.2 rfl
  exact C103_sketch hu he hY (hI.accL.each _ m) (hI.accR.each _ m) hI.dirL hI.dirR hC

/-- the hypotheses of both theorems, for the sketch of `X.add(X * (-2))` -/
example {u : ℝ} (hu : 0 ≤ u) (env : Env ℝ) : ∃ (e : TTExpr) (Y : TT ℝ) (S : Sketched ℝ) (C : Container ℝ),
    e.Valid ∧ 2 ≤ e.shape.length ∧ e.FlEval u Y ∧ Y.rank = [2] ∧
    streamSketch env (.leaf (.tt Y)) (.int 1) (.int 2) {} = .ok S ∧
    FlGeneralSketch u env (.leaf (.tt Y)) S.left S.right C ∧
    S.left.Accepts (.tt Y) ∧ S.right.Accepts (.tt Y) ∧ S.left.transpose = false ∧ S.right.transpose = true := by
  have hd : 2 ≤ f85.shape.length := by simp [f85, TT.shape]
  have he : TTExpr.Valid (.add (.tt f85) (.mul (.tt f85) (-2))) := ⟨f85_valid, f85_valid, rfl, hd⟩
  have hY := C103_runs hu he
  have hv : (Tensor.leaf (.tt (TTExpr.add (.tt f85) (.mul (.tt f85) (-2))).eval)).Valid := (ttExpr_eval he).1
  obtain ⟨S, hS⟩ := C33_success env (.leaf (.tt (TTExpr.add (.tt f85) (.mul (.tt f85) (-2))).eval)) (.int 1) (.int 2)
    none none none hv (by decide) rfl rfl
    (.inl (by decide)) (by decide) (fun t _ D hD => supports_tt D (by rcases hD with h | h <;> exact h) t)
  obtain ⟨hI, -⟩ := stream_inv (SketchKw.good_none _ _ _) hv trivial (by exact le_rfl) hS
  have m : Leaf.tt (TTExpr.add (.tt f85) (.mul (.tt f85) (-2))).eval ∈
    (Tensor.leaf (.tt (TTExpr.add (.tt f85) (.mul (.tt f85) (-2))).eval)).summands := List.mem_singleton.2 rfl
  exact ⟨_, _, S, _, he, hd, hY, rfl, hS, C86_exact hu (streaming_sum (env := env) hI.accL hI.accR hI.dirL hI.dirR),
    hI.accL.each _ m, hI.accR.each _ m, hI.dirL, hI.dirR⟩

end TTS.Props
