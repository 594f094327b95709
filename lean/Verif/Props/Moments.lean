import Verif.Proofs.MomentsDRM
import Verif.Props.ProbMore

/-!
# Property C68: second moments of sketches

`StandardDraws` (the idealised generators), `Env.SeedsApart`, `SketchMoments` are in `Spec/Moments.lean`.
-/

namespace TTS.Props

open TTS Finset MeasureTheory

variable {Ω : Type*} [MeasurableSpace Ω] {P : Measure Ω} {g : Ω → Draw → ℝ}

theorem used_pos' {shape : List ℕ} {rank : RankArg} (t : Bool) (hd : 1 ≤ shape.length)
    (hl : (ranksOf rank shape.length).length = shape.length - 1) (p1 : ∀ n ∈ shape, 0 < n)
    (p2 : ∀ r ∈ ranksOf rank shape.length, 0 < r) : ∀ r ∈ usedRanks shape rank t, 0 < r := by
  cases t
  · exact p2
  · exact used_pos hd hl p1 p2

/-- sketches that are contractions with isotropic matrices -/
theorem moments_of (hg : StandardDraws P g) {env : Env ℝ} {A B : ND ℝ} {sl sr : ℕ}
    (hap : env.SeedsApart A.shape sl sr) {l r : List ℕ} (hl : l.length = A.shape.length - 1)
    (hr : r.length = A.shape.length - 1) {L R : (Draw → ℝ) → Mats ℝ}
    (hL : ∀ k ≤ A.shape.length - 1, ∃ T, DrawnBy env A.shape sl T ∧
      IsoOn P g T (A.shape.take k) ((1 :: l).getD k 0) 1 fun g => L g k)
    (hR : ∀ k < A.shape.length, ∃ T, DrawnBy env A.shape.reverse sr T ∧
      IsoOn P g T (A.shape.drop (k + 1)) ((r ++ [1]).getD k 0) 1 fun g => R g (k + 1))
    {S S' : Ω → Sketched ℝ} (hS : ∀ ω, (S ω).leftRank = l ∧ (S ω).rightRank = r ∧
      (S ω).sketch = sketchOf A.shape A.get (L (g ω)) (R (g ω)) l r)
    (hS' : ∀ ω, (S' ω).leftRank = l ∧ (S' ω).rightRank = r ∧
      (S' ω).sketch = sketchOf A.shape B.get (L (g ω)) (R (g ω)) l r) : SketchMoments P S S' A B l r where
  shape ω := ⟨by rw [(hS ω).2.2]; exact sketchOf_hasShape _ _ _ _ _ _, (hS ω).1, (hS ω).2.1⟩
  shape' ω := ⟨by rw [(hS' ω).2.2]; exact sketchOf_hasShape _ _ _ _ _ _, (hS' ω).1, (hS' ω).2.1⟩
  omega mu hmu a ha b hb a' ha' b' hb' := by
    obtain ⟨T, hT, iL⟩ := hL (mu + 1) (by omega)
    obtain ⟨T', hT', iR⟩ := hR mu (by omega)
    obtain ⟨hdj, hc⟩ := drawnBy_apart hap hT hT'
    rw [List.getD_cons_succ] at iL
    rw [List.getD_append _ _ _ _ (by omega)] at iR
    have := bilinear_moment hg hdj hc iL iR (fun p q => A.get (p ++ q)) (fun p q => B.get (p ++ q)) ha ha' hb hb'
    have e : ∀ (X : ND ℝ) (S : Ω → Sketched ℝ), (∀ ω, (S ω).sketch = sketchOf A.shape X.get (L (g ω)) (R (g ω)) l r) →
        ∀ a b, a < l.getD mu 0 → b < r.getD mu 0 → ∀ ω, ((S ω).sketch.omega.getD mu (ND.zeros [])).get [a, b]
          = sumIdx (A.shape.take (mu + 1)) fun p => sumIdx (A.shape.drop (mu + 1)) fun q =>
            L (g ω) (mu + 1) p a * X.get (p ++ q) * R (g ω) (mu + 1) q b := by
      intro X S hS a b ha hb ω
      rw [hS ω, sketchOf_omega_get hmu ha hb]
      rfl
    simp only [e A S (fun ω => (hS ω).2.2) a b ha hb, e B S' (fun ω => (hS' ω).2.2) a' b' ha' hb']
    refine ⟨this.1, this.2.trans ?_⟩
    congr 1
    rw [innerND]
    conv_rhs => rw [← List.take_append_drop (mu + 1) A.shape, sumIdx_append]
  psi mu hmu a ha j hj b hb a' ha' j' hj' b' hb' := by
    obtain ⟨T, hT, iL⟩ := hL mu (by omega)
    obtain ⟨T', hT', iR⟩ := hR mu (by omega)
    obtain ⟨hdj, hc⟩ := drawnBy_apart hap hT hT'
    have := bilinear_moment hg hdj hc iL iR (fun p q => A.get (p ++ j :: q)) (fun p q => B.get (p ++ j' :: q)) ha ha' hb hb'
    have e : ∀ (X : ND ℝ) (S : Ω → Sketched ℝ), (∀ ω, (S ω).sketch = sketchOf A.shape X.get (L (g ω)) (R (g ω)) l r) →
        ∀ a j b, a < (1 :: l).getD mu 0 → j < A.shape.getD mu 0 → b < (r ++ [1]).getD mu 0 →
        ∀ ω, ((S ω).sketch.psi.getD mu (ND.zeros [])).get [a, j, b]
          = sumIdx (A.shape.take mu) fun p => sumIdx (A.shape.drop (mu + 1)) fun q =>
            L (g ω) mu p a * X.get (p ++ j :: q) * R (g ω) (mu + 1) q b := by
      intro X S hS a j b ha hj hb ω
      rw [hS ω, sketchOf_psi_get hmu ha hj hb]
      rfl
    simp only [e A S (fun ω => (hS ω).2.2) a j b ha hj hb, e B S' (fun ω => (hS' ω).2.2) a' j' b' ha' hj' hb']
    exact this

/-- **C68.** Two tensors of the same shape sketched with the same arguments (drawn DRMs, tensor train or dense Gaussian;
positive ranks).  Over independent standardised draws every entry of `Omega` has mean square `‖X‖²`, different entries are
uncorrelated, and in general inner products are preserved on average; the same holds for the slices of `Psi`. Formats as
in `C33_streaming`. -/
theorem C68_stream (hg : StandardDraws P g) (env : Env ℝ) (hinv : ∀ r, 0 < r → env.invSqrt r ^ 2 * r = 1)
    (X Y : Tensor ℝ) (lrank rrank : RankArg) (seed : Option ℕ) (lt rt : Option DRMKind)
    (hX : X.Valid) (nX : X.NonEmpty) (dX : X.Distinct) (xX : ∀ t ∈ X.summands, t.RightExact)
    (hY : Y.Valid) (nY : Y.NonEmpty) (dY : Y.Distinct) (xY : ∀ t ∈ Y.summands, t.RightExact) (hXY : Y.shape = X.shape)
    (hd : 2 ≤ X.shape.length)
    (hl : (ranksOf lrank X.shape.length).length = X.shape.length - 1)
    (hr : (ranksOf rrank X.shape.length).length = X.shape.length - 1)
    (ho : RanksOrdered (X.shape.length - 1) (ranksOf lrank X.shape.length) (ranksOf rrank X.shape.length))
    (p1 : ∀ n ∈ X.shape, 0 < n) (p2 : ∀ r ∈ ranksOf lrank X.shape.length, 0 < r)
    (p3 : ∀ r ∈ ranksOf rrank X.shape.length, 0 < r) (hseed : seed.getD 0 < 2 ^ 32)
    (hkl : (lt.getD (rt.getD .tensorTrain)).Drawn) (hkr : (rt.getD (lt.getD .tensorTrain)).Drawn)
    (hsup : ∀ t ∈ X.summands ++ Y.summands, ∀ D : DRMData ℝ, (D.kind = lt.getD (rt.getD .tensorTrain) ∨
      D.kind = rt.getD (lt.getD .tensorTrain)) → D.supports t = true)
    (hdl : env.DistinctStates (env.sketchSeed seed) X.shape.length)
    (hdr : env.DistinctStates (env.rightSeed (env.sketchSeed seed) X.shape.length) X.shape.length)
    (hap : env.SeedsApart X.shape (env.sketchSeed seed) (env.rightSeed (env.sketchSeed seed) X.shape.length)) :
    ∃ (S S' : Ω → Sketched ℝ) (l r : List ℕ),
      (∀ ω, streamSketch (env.withDraws (g ω)) X lrank rrank { seed := seed, leftType := lt, rightType := rt } = .ok (S ω)) ∧
      (∀ ω, streamSketch (env.withDraws (g ω)) Y lrank rrank { seed := seed, leftType := lt, rightType := rt } = .ok (S' ω)) ∧
      l.length = X.shape.length - 1 ∧ r.length = X.shape.length - 1 ∧ (∀ n ∈ l, 0 < n) ∧ (∀ n ∈ r, 0 < n) ∧
      SketchMoments P S S' X.toNumpy Y.toNumpy l r := by
  have hsh := Tensor.toNumpy_shape hX
  have ok := fun ω => C33_success (env.withDraws (g ω)) X lrank rrank seed lt rt hX hd hl hr ho hseed
    fun t ht => hsup t (List.mem_append_left _ ht)
  have ok' := fun ω => C33_success (env.withDraws (g ω)) Y lrank rrank seed lt rt hY (by rw [hXY]; exact hd)
    (by rw [hXY]; exact hl) (by rw [hXY]; exact hr) (by rw [hXY]; exact ho) hseed
    fun t ht => hsup t (List.mem_append_right _ ht)
  choose S hS using ok
  choose S' hS' using ok'
  obtain ⟨S0, hS0⟩ := C33_success env X lrank rrank seed lt rt hX hd hl hr ho hseed
    fun t ht => hsup t (List.mem_append_left _ ht)
  obtain ⟨tl, tr, h1, h2, -⟩ := stream_drms hd hl hr hseed hS0
  have hkw : SketchKw.Good (K := ℝ) { seed := seed, leftType := lt, rightType := rt } := SketchKw.good_none _ _ _
  have ll := usedRanks_length (shape := X.shape) tl (by omega) hl
  have lr := usedRanks_length (shape := X.shape) tr (by omega) hr
  have rep : ∀ (Z : Tensor ℝ) (U : Ω → Sketched ℝ), Z.Valid → Z.NonEmpty → Z.Distinct → (∀ t ∈ Z.summands, t.RightExact) →
      Z.shape = X.shape → (∀ ω, streamSketch (env.withDraws (g ω)) Z lrank rrank
        { seed := seed, leftType := lt, rightType := rt } = .ok (U ω)) → ∀ ω,
      (U ω).leftRank = usedRanks X.shape lrank tl ∧ (U ω).rightRank = usedRanks X.shape rrank tr ∧
      (U ω).sketch = sketchOf X.toNumpy.shape Z.toNumpy.get
        ((madeDRM (env.withDraws (g ω)) (lt.getD (rt.getD .tensorTrain)) X.shape false (env.sketchSeed seed)
          (usedRanks X.shape lrank tl)).leftMats (env.withDraws (g ω)))
        ((madeDRM (env.withDraws (g ω)) (rt.getD (lt.getD .tensorTrain)) X.shape true
          (env.rightSeed (env.sketchSeed seed) X.shape.length) (usedRanks X.shape rrank tr)).rightMats (env.withDraws (g ω)))
        (usedRanks X.shape lrank tl) (usedRanks X.shape rrank tr) := by
    intro Z U hZ nZ dZ xZ sZ hU ω
    obtain ⟨tl', tr', h1', h2', e1, e2⟩ := stream_drms (by rw [sZ]; exact hd) (by rw [sZ]; exact hl) (by rw [sZ]; exact hr) hseed (hU ω)
    have : tl' = tl := by rw [h1] at h1'; injection h1' with h; exact h.symm
    subst this
    have : tr' = tr := by rw [h2] at h2'; injection h2' with h; exact h.symm
    subst this
    rw [sZ] at e1 e2
    have eL : (U ω).leftRank = usedRanks X.shape lrank tl' := by
      show (U ω).left.rank = _
      rw [e1, made_rank _ _ _ _ _ _ ll]; rfl
    have eR : (U ω).rightRank = usedRanks X.shape rrank tr' := by
      show (U ω).right.rank.reverse = _
      rw [e2, made_rank _ _ _ _ _ _ lr]
      show List.reverse (List.reverse _) = _
      rw [List.reverse_reverse]
    refine ⟨eL, eR, ?_⟩
    rw [C33_streaming (env.withDraws (g ω)) Z lrank rrank _ (U ω) hkw hZ nZ (by rw [sZ]; exact hd) dZ xZ (hU ω), eL, eR,
      e1, e2, sZ, hsh]
    rfl
  refine ⟨S, S', _, _, hS, hS', ll, lr, used_pos' tl (by omega) hl p1 p2,
    used_pos' tr (by omega) hr p1 p3, moments_of hg (env := env) (A := X.toNumpy) (B := Y.toNumpy)
    (sl := env.sketchSeed seed) (sr := env.rightSeed (env.sketchSeed seed) X.shape.length) (by rw [hsh]; exact hap)
    (by rw [hsh]; exact ll) (by rw [hsh]; exact lr)
    (L := fun g => (madeDRM (env.withDraws g) (lt.getD (rt.getD .tensorTrain)) X.shape false (env.sketchSeed seed)
          (usedRanks X.shape lrank tl)).leftMats (env.withDraws g))
    (R := fun g => (madeDRM (env.withDraws g) (rt.getD (lt.getD .tensorTrain)) X.shape true
          (env.rightSeed (env.sketchSeed seed) X.shape.length) (usedRanks X.shape rrank tr)).rightMats (env.withDraws g))
    ?_ ?_ (rep X S hX nX dX xX rfl hS) (rep Y S' hY nY dY xY hXY hS')⟩
  · rw [hsh]
    exact left_iso hg env hinv _ hkl X.shape _ ll (used_pos' tl (by omega) hl p1 p2) _ hdl
  · rw [hsh]
    exact right_iso hg env hinv _ hkr X.shape _ lr (used_pos' tr (by omega) hr p1 p3) _ hdr

/-- **C68, dense arrays** with any number of modes. -/
theorem C68_stream_dense (hg : StandardDraws P g) (env : Env ℝ) (hinv : ∀ r, 0 < r → env.invSqrt r ^ 2 * r = 1)
    (X Y : ND ℝ) (lrank rrank : RankArg) (seed : Option ℕ) (lt rt : Option DRMKind) (hXY : Y.shape = X.shape)
    (hd : 2 ≤ X.shape.length)
    (hl : (ranksOf lrank X.shape.length).length = X.shape.length - 1)
    (hr : (ranksOf rrank X.shape.length).length = X.shape.length - 1)
    (ho : RanksOrdered (X.shape.length - 1) (ranksOf lrank X.shape.length) (ranksOf rrank X.shape.length))
    (p1 : ∀ n ∈ X.shape, 0 < n) (p2 : ∀ r ∈ ranksOf lrank X.shape.length, 0 < r)
    (p3 : ∀ r ∈ ranksOf rrank X.shape.length, 0 < r) (hseed : seed.getD 0 < 2 ^ 32)
    (hkl : (lt.getD (rt.getD .tensorTrain)).Drawn) (hkr : (rt.getD (lt.getD .tensorTrain)).Drawn)
    (hdl : env.DistinctStates (env.sketchSeed seed) X.shape.length)
    (hdr : env.DistinctStates (env.rightSeed (env.sketchSeed seed) X.shape.length) X.shape.length)
    (hap : env.SeedsApart X.shape (env.sketchSeed seed) (env.rightSeed (env.sketchSeed seed) X.shape.length)) :
    ∃ (S S' : Ω → Sketched ℝ) (l r : List ℕ),
      (∀ ω, streamSketch (env.withDraws (g ω)) (.leaf (.dense X)) lrank rrank
        { seed := seed, leftType := lt, rightType := rt } = .ok (S ω)) ∧
      (∀ ω, streamSketch (env.withDraws (g ω)) (.leaf (.dense Y)) lrank rrank
        { seed := seed, leftType := lt, rightType := rt } = .ok (S' ω)) ∧
      l.length = X.shape.length - 1 ∧ r.length = X.shape.length - 1 ∧ (∀ n ∈ l, 0 < n) ∧ (∀ n ∈ r, 0 < n) ∧
      SketchMoments P S S' X Y l r := by
  have hsup : ∀ (Z : ND ℝ), ∀ t ∈ (Tensor.leaf (Leaf.dense Z)).summands, ∀ D : DRMData ℝ,
      (D.kind = lt.getD (rt.getD .tensorTrain) ∨ D.kind = rt.getD (lt.getD .tensorTrain)) → D.supports t = true := by
    intro Z t ht D hD
    have ht : t = .dense Z := by simpa [Tensor.summands] using ht
    subst ht
    have : D.kind.Drawn := by
      rcases hD with hD | hD <;> rw [hD]
      · exact hkl
      · exact hkr
    cases D <;> simp [DRMData.kind, DRMKind.Drawn] at this <;> rfl
  have ok := fun ω => C33_success (env.withDraws (g ω)) (.leaf (.dense X)) lrank rrank seed lt rt trivial hd hl hr ho hseed
    (hsup X)
  have ok' := fun ω => C33_success (env.withDraws (g ω)) (.leaf (.dense Y)) lrank rrank seed lt rt trivial
    (by show 2 ≤ Y.shape.length; rw [hXY]; exact hd) (by show _ = Y.shape.length - 1; show (ranksOf lrank Y.shape.length).length = _; rw [hXY]; exact hl)
    (by show (ranksOf rrank Y.shape.length).length = Y.shape.length - 1; rw [hXY]; exact hr)
    (by show RanksOrdered (Y.shape.length - 1) (ranksOf lrank Y.shape.length) (ranksOf rrank Y.shape.length); rw [hXY]; exact ho)
    hseed (hsup Y)
  choose S hS using ok
  choose S' hS' using ok'
  obtain ⟨S0, hS0⟩ := C33_success env (.leaf (.dense X)) lrank rrank seed lt rt trivial hd hl hr ho hseed (hsup X)
  obtain ⟨tl, tr, h1, h2, -⟩ := stream_drms (X := .leaf (.dense X)) hd hl hr hseed hS0
  have hkw : SketchKw.Good (K := ℝ) { seed := seed, leftType := lt, rightType := rt } := SketchKw.good_none _ _ _
  have ll := usedRanks_length (shape := X.shape) tl (by omega) hl
  have lr := usedRanks_length (shape := X.shape) tr (by omega) hr
  have rep : ∀ (Z : ND ℝ) (U : Ω → Sketched ℝ), 
      Z.shape = X.shape → (∀ ω, streamSketch (env.withDraws (g ω)) (.leaf (.dense Z)) lrank rrank
        { seed := seed, leftType := lt, rightType := rt } = .ok (U ω)) → ∀ ω,
      (U ω).leftRank = usedRanks X.shape lrank tl ∧ (U ω).rightRank = usedRanks X.shape rrank tr ∧
      (U ω).sketch = sketchOf X.shape Z.get
        ((madeDRM (env.withDraws (g ω)) (lt.getD (rt.getD .tensorTrain)) X.shape false (env.sketchSeed seed)
          (usedRanks X.shape lrank tl)).leftMats (env.withDraws (g ω)))
        ((madeDRM (env.withDraws (g ω)) (rt.getD (lt.getD .tensorTrain)) X.shape true
          (env.rightSeed (env.sketchSeed seed) X.shape.length) (usedRanks X.shape rrank tr)).rightMatsDense (env.withDraws (g ω)))
        (usedRanks X.shape lrank tl) (usedRanks X.shape rrank tr) := by
    intro Z U sZ hU ω
    have sZ' : (Tensor.leaf (Leaf.dense Z)).shape = X.shape := sZ
    obtain ⟨tl', tr', h1', h2', e1, e2⟩ := stream_drms (by rw [sZ']; exact hd) (by rw [sZ']; exact hl) (by rw [sZ']; exact hr) hseed (hU ω)
    have : tl' = tl := by rw [h1] at h1'; injection h1' with h; exact h.symm
    subst this
    have : tr' = tr := by rw [h2] at h2'; injection h2' with h; exact h.symm
    subst this
    rw [sZ'] at e1 e2
    have eL : (U ω).leftRank = usedRanks X.shape lrank tl' := by
      show (U ω).left.rank = _
      rw [e1, made_rank _ _ _ _ _ _ ll]; rfl
    have eR : (U ω).rightRank = usedRanks X.shape rrank tr' := by
      show (U ω).right.rank.reverse = _
      rw [e2, made_rank _ _ _ _ _ _ lr]
      show List.reverse (List.reverse _) = _
      rw [List.reverse_reverse]
    refine ⟨eL, eR, ?_⟩
    rw [C33_dense (env.withDraws (g ω)) Z lrank rrank _ (U ω) hkw (by rw [sZ]; exact hd) (hU ω), eL, eR,
      e1, e2, sZ]
    rfl
  refine ⟨S, S', _, _, hS, hS', ll, lr, used_pos' tl (by omega) hl p1 p2,
    used_pos' tr (by omega) hr p1 p3, moments_of hg (env := env) (A := X) (B := Y)
    (sl := env.sketchSeed seed) (sr := env.rightSeed (env.sketchSeed seed) X.shape.length) hap ll lr
    (L := fun g => (madeDRM (env.withDraws g) (lt.getD (rt.getD .tensorTrain)) X.shape false (env.sketchSeed seed)
          (usedRanks X.shape lrank tl)).leftMats (env.withDraws g))
    (R := fun g => (madeDRM (env.withDraws g) (rt.getD (lt.getD .tensorTrain)) X.shape true
          (env.rightSeed (env.sketchSeed seed) X.shape.length) (usedRanks X.shape rrank tr)).rightMatsDense (env.withDraws g))
    ?_ ?_ (rep X S rfl hS) (rep Y S' hXY hS')⟩
  · exact left_iso hg env hinv _ hkl X.shape _ ll (used_pos' tl (by omega) hl p1 p2) _ hdl
  · exact right_iso_dense hg env hinv _ hkr X.shape _ lr (used_pos' tr (by omega) hr p1 p3) _ hdr

/-- **C68, norms.** In particular `E ‖Omega[mu]‖² = l r ‖X‖²` and `E ‖Psi[mu]‖² = l r ‖X‖²`, where `l` and `r` are the
outer dimensions of the array. -/
theorem C68_norm {S : Ω → Sketched ℝ} {A : ND ℝ} {l r : List ℕ} (h : SketchMoments P S S A A l r) :
    (∀ mu < A.shape.length - 1, ∫ ω, normSq ((S ω).sketch.omega.getD mu (ND.zeros [])) ∂P
      = l.getD mu 0 * r.getD mu 0 * normSq A) ∧
    ∀ mu < A.shape.length, ∫ ω, normSq ((S ω).sketch.psi.getD mu (ND.zeros [])) ∂P
      = (1 :: l).getD mu 0 * (r ++ [1]).getD mu 0 * normSq A := by
  have hn : normSq A = innerND A A := by
    unfold normSq innerND
    exact sumIdx_congr fun i _ => by ring
  constructor
  · intro mu hmu
    have e : ∀ ω, normSq ((S ω).sketch.omega.getD mu (ND.zeros [])) = ∑ a ∈ range (l.getD mu 0), ∑ b ∈ range (r.getD mu 0),
        ((S ω).sketch.omega.getD mu (ND.zeros [])).get [a, b] * ((S ω).sketch.omega.getD mu (ND.zeros [])).get [a, b] := by
      intro ω
      unfold normSq
      rw [(h.shape ω).1.omega mu hmu]
      simp only [sumIdx, pow_two]
    simp only [e]
    have hi : ∀ a ∈ range (l.getD mu 0), ∀ b ∈ range (r.getD mu 0), _ := fun a ha b hb =>
      h.omega mu hmu a (mem_range.1 ha) b (mem_range.1 hb) a (mem_range.1 ha) b (mem_range.1 hb)
    rw [integral_finsetSum _ fun a ha => integrable_finsetSum _ fun b hb => (hi a ha b hb).1]
    rw [sum_congr rfl fun a ha => integral_finsetSum _ fun b hb => (hi a ha b hb).1]
    rw [sum_congr rfl fun a ha => sum_congr rfl fun b hb => (hi a ha b hb).2.trans (if_pos ⟨rfl, rfl⟩)]
    simp only [sum_const, card_range, nsmul_eq_mul, hn]
    ring
  · intro mu hmu
    have e : ∀ ω, normSq ((S ω).sketch.psi.getD mu (ND.zeros [])) = ∑ a ∈ range ((1 :: l).getD mu 0),
        ∑ j ∈ range (A.shape.getD mu 0), ∑ b ∈ range ((r ++ [1]).getD mu 0),
        ((S ω).sketch.psi.getD mu (ND.zeros [])).get [a, j, b] * ((S ω).sketch.psi.getD mu (ND.zeros [])).get [a, j, b] := by
      intro ω
      unfold normSq
      rw [(h.shape ω).1.psi mu hmu]
      simp only [sumIdx, pow_two]
    simp only [e]
    have hi : ∀ a ∈ range ((1 :: l).getD mu 0), ∀ j ∈ range (A.shape.getD mu 0), ∀ b ∈ range ((r ++ [1]).getD mu 0), _ :=
      fun a ha j hj b hb => h.psi mu hmu a (mem_range.1 ha) j (mem_range.1 hj) b (mem_range.1 hb) a (mem_range.1 ha)
        j (mem_range.1 hj) b (mem_range.1 hb)
    rw [integral_finsetSum _ fun a ha => integrable_finsetSum _ fun j hj => integrable_finsetSum _ fun b hb => (hi a ha j hj b hb).1]
    rw [sum_congr rfl fun a ha => integral_finsetSum _ fun j hj => integrable_finsetSum _ fun b hb => (hi a ha j hj b hb).1]
    rw [sum_congr rfl fun a ha => sum_congr rfl fun j hj => integral_finsetSum _ fun b hb => (hi a ha j hj b hb).1]
    rw [sum_congr rfl fun a ha => sum_congr rfl fun j hj => sum_congr rfl fun b hb =>
      (hi a ha j hj b hb).2.trans (if_pos ⟨rfl, rfl⟩)]
    simp only [sum_const, card_range, nsmul_eq_mul]
    rw [← mul_sum]
    have e2 : ∑ j ∈ range (A.shape.getD mu 0), sliceInner A A mu j j = normSq A := by
      rw [hn, innerND]
      unfold sliceInner
      conv_rhs => rw [← List.take_append_drop mu A.shape, sumIdx_append, drop_eq_getD_cons hmu 0]
      simp only [sumIdx]
      rw [sumIdx_sum]
    rw [e2]
    ring

end TTS.Props
