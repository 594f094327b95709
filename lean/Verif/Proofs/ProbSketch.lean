import Verif.Proofs.ProbDRM
import Verif.Proofs.ProbRank
import Verif.Proofs.Stream

/-!
# Almost surely, freshly made left and right DRMs keep the ranks of all unfoldings
-/

namespace TTS

open Finset MeasureTheory Props

section
variable {K : Type*} [CommRing K]

/-- a DRM made by the sketching functions -/
def madeDRM (env : Env K) (kind : DRMKind) (shape : List ℕ) (t : Bool) (seed : ℕ) (r : List ℕ) : DRM K :=
  ⟨mkBase shape t (seed % (2 ^ 32 - 1)) (List.replicate (shape.length - 1) 0) r r,
    buildData env kind (mkBase shape t (seed % (2 ^ 32 - 1)) (List.replicate (shape.length - 1) 0) r r) (some seed) none⟩

theorem new_made (env : Env K) (kind : DRMKind) (shape : List ℕ) (t : Bool) (seed : ℕ) (r : List ℕ)
    (hd : 2 ≤ shape.length) (hr : r.length = shape.length - 1) (hs : seed < 2 ^ 32) :
    DRM.new env kind (.seq r) shape t (some seed) = .ok (madeDRM env kind shape t seed r) :=
  new_full env kind (.seq r) shape t (some seed) hd hr fun _ => hs

theorem made_rank (env : Env K) (kind : DRMKind) (shape : List ℕ) (t : Bool) (seed : ℕ) (r : List ℕ)
    (hr : r.length = shape.length - 1) : (madeDRM env kind shape t seed r).rank = rev? t r := by
  show List.zipWith _ (rev? t _) (rev? t r) = _
  rw [rev?_replicate]
  exact zipWith_sub_zero _ _ (by rw [rev?_length, hr])

/-- the ranks of a DRM made by the sketching functions -/
def usedRanks (shape : List ℕ) (rank : RankArg) (trim : Bool) : List ℕ :=
  if trim then trimRanks shape (ranksOf rank shape.length) else ranksOf rank shape.length

theorem usedRanks_length {shape : List ℕ} {rank : RankArg} (trim : Bool) (hd : 1 ≤ shape.length)
    (h : (ranksOf rank shape.length).length = shape.length - 1) : (usedRanks shape rank trim).length = shape.length - 1 := by
  unfold usedRanks
  split
  · rw [trimRanks_length _ _ (by omega), h]
  · exact h

theorem process_used {shape : List ℕ} {rank : RankArg} (trim : Bool) (hd : 1 ≤ shape.length)
    (h : (ranksOf rank shape.length).length = shape.length - 1) :
    processTTRank rank shape trim = .ok (usedRanks shape rank trim) := by
  rw [process_eq, if_neg (by omega)]
  cases trim <;> rfl

theorem rightSeed_lt (env : Env K) (sd d : ℕ) : env.rightSeed sd d < 2 ^ 32 := by
  unfold Env.rightSeed
  have := Int.emod_lt_of_pos ((sd : ℤ) + env.strHash d) (b := 2 ^ 32) (by norm_num)
  have := Int.emod_nonneg ((sd : ℤ) + env.strHash d) (b := 2 ^ 32) (by norm_num)
  omega

theorem leftDRM_made (env : Env K) {shape : List ℕ} {rank : RankArg} (trim : Bool) (sd : ℕ) (seed : Option ℕ)
    (lt rt : Option DRMKind) (hd : 2 ≤ shape.length) (h : (ranksOf rank shape.length).length = shape.length - 1)
    (hs : sd < 2 ^ 32) : leftDRM env shape rank trim sd { seed := seed, leftType := lt, rightType := rt }
      = .ok (madeDRM env (lt.getD (rt.getD .tensorTrain)) shape false sd (usedRanks shape rank trim)) := by
  unfold leftDRM
  simp only [process_used trim (by omega) h]
  exact new_made env _ _ _ _ _ hd (usedRanks_length trim (by omega) h) hs

theorem rightDRM_made (env : Env K) {shape : List ℕ} {rank : RankArg} (trim : Bool) (sd : ℕ) (seed : Option ℕ)
    (lt rt : Option DRMKind) (hd : 2 ≤ shape.length) (h : (ranksOf rank shape.length).length = shape.length - 1) :
    rightDRM env shape rank trim sd { seed := seed, leftType := lt, rightType := rt }
      = .ok (madeDRM env (rt.getD (lt.getD .tensorTrain)) shape true (env.rightSeed sd shape.length)
          (usedRanks shape rank trim)) := by
  unfold rightDRM
  simp only [process_used trim (by omega) h]
  exact new_made env _ _ _ _ _ hd (usedRanks_length trim (by omega) h) (rightSeed_lt _ _ _)

end

variable {Ω : Type*} [MeasurableSpace Ω] {P : Measure Ω} {g : Ω → Draw → ℝ}

theorem used_ge (A : ND ℝ) (rank : RankArg) (trim : Bool) (hd : 1 ≤ A.shape.length)
    (hl : (ranksOf rank A.shape.length).length = A.shape.length - 1)
    (hr : ∀ k < A.shape.length - 1, (A.unfolding (k + 1)).rank ≤ (ranksOf rank A.shape.length).getD k 0) :
    ∀ k < A.shape.length - 1, (A.unfolding (k + 1)).rank ≤ (usedRanks A.shape rank trim).getD k 0 := by
  intro k hk
  unfold usedRanks
  split
  · exact unfolding_le_trim A _ (by omega) (fun k hk => hr k (by omega)) k (by omega)
  · exact hr k hk

/-- the entries of a dense Gaussian DRM -/
theorem made_dense_entry' (env : Env ℝ) (shape : List ℕ) (t : Bool) (seed : ℕ) (r : List ℕ) (k : ℕ)
    (hk : k < shape.length - 1) :
    ∀ g p a, InR ((rev? t shape).take (k + 1)) p → a < (rev? t r).getD k 0 →
      (madeDRM (env.withDraws g) .denseGaussian shape t seed r).entry (env.withDraws g) k p a
        = g (.stream ((seed % (2 ^ 32 - 1) + env.seedOffset (some seed) ((rev? t shape).take (k + 1)).prod) % (2 ^ 32 - 1))
            (a * ((rev? t shape).take (k + 1)).prod + ravel ((rev? t shape).take (k + 1)) p)) := by
  intro g p a hp ha
  show ND.get (((List.range (shape.length - 1)).map _).getD k _) [a, ravel ((rev? t shape).take (k + 1)) p] = _
  rw [getD_map_range _ _ _ _ hk]
  have h0 : (rev? t (List.replicate (shape.length - 1) 0)).getD k 0 = 0 := by
    rw [rev?_replicate, replicate_getD_zero]
  unfold denseMat
  simp only []
  have hlt := ravel_lt hp
  refine (ND.rows_get (p := (rev? t r).getD k 0) (q := ((rev? t shape).take (k + 1)).prod) (by rfl) _ _ _ _
    (show (rev? t (List.replicate (shape.length - 1) 0)).getD k 0 + a < (rev? t r).getD k 0 by rw [h0]; omega)).trans ?_
  rw [h0, zero_add]
  refine (ND.ofFn_get (show InR [_, _] [_, _] from ⟨ha, hlt, trivial⟩)).trans ?_
  show g (Draw.stream _ _) = g (Draw.stream _ _)
  congr 2
  show a * ((((rev? t shape).take (k + 1)).prod) * 1) + (ravel ((rev? t shape).take (k + 1)) p * 1 + 0) = _
  ring

theorem made_dense_entry (env : Env ℝ) (shape : List ℕ) (t : Bool) (seed : ℕ) (r : List ℕ) (k : ℕ)
    (hk : k < shape.length - 1) :
    ∃ s, ∀ g p a, InR ((rev? t shape).take (k + 1)) p → a < (rev? t r).getD k 0 →
      (madeDRM (env.withDraws g) .denseGaussian shape t seed r).entry (env.withDraws g) k p a
        = g (.stream s (a * ((rev? t shape).take (k + 1)).prod + ravel ((rev? t shape).take (k + 1)) p)) :=
  ⟨_, made_dense_entry' env shape t seed r k hk⟩

/-- the entries of a tensor train DRM -/
theorem made_tt_entry (env : Env ℝ) (shape : List ℕ) (t : Bool) (seed : ℕ) (r : List ℕ) (k : ℕ)
    (p : List ℕ) (a : ℕ) : (madeDRM env .tensorTrain shape t seed r).entry env k p a
      = ttVal (((List.range (shape.length - 1)).map (drmCore env (rev? t shape) (rev? t r) (seed % (2 ^ 32 - 1)))).take
          (k + 1)) p 0 a := by
  have h0 : (rev? t (List.replicate (shape.length - 1) 0)).getD k 0 = 0 := by
    rw [rev?_replicate, replicate_getD_zero]
  show ttVal _ p 0 ((rev? t (List.replicate (shape.length - 1) 0)).getD k 0 + a) = _
  rw [h0, zero_add]
  rfl

/-- Own direction. -/
theorem made_keeps (hg : ContinuousDraws P g) (env : Env ℝ) (hinv : ∀ r, 0 < r → env.invSqrt r ≠ 0) (A : ND ℝ)
    {shape : List ℕ} {t : Bool} (hA : A.shape = rev? t shape) (kind : DRMKind) (hk : kind.Drawn) (r : List ℕ)
    (hl : r.length = shape.length - 1) (seed : ℕ)
    (hdis : ∀ i < shape.length - 1, ∀ j < shape.length - 1, env.genState (seed % (2 ^ 32 - 1)) shape.length i
      = env.genState (seed % (2 ^ 32 - 1)) shape.length j → i = j)
    (hr : ∀ k < shape.length - 1, (A.unfolding (k + 1)).rank ≤ (rev? t r).getD k 0) (k : ℕ) (hk' : k < shape.length - 1) :
    ∀ᵐ ω ∂P, (A.unfolding (k + 1)).rank ≤ (contracted A (k + 1) ((rev? t r).getD k 0) fun p a =>
      (madeDRM (env.withDraws (g ω)) kind shape t seed r).entry (env.withDraws (g ω)) k p a).rank := by
  have hlen : A.shape.length = shape.length := by rw [hA, rev?_length]
  rcases hk with rfl | rfl
  · have := tt_keeps hg env hinv A (rev? t r) (by rw [rev?_length, hl, hlen]) (seed % (2 ^ 32 - 1))
      (by rw [hlen]; exact hdis) (by rw [hlen]; exact hr) k (by rw [hlen]; exact hk')
    refine this.mono fun ω hω => ?_
    simp only [made_tt_entry]
    rw [← hA, ← hlen]
    exact hω
  · obtain ⟨s, hs⟩ := made_dense_entry env shape t seed r k hk'
    refine (gauss_keeps hg (A.unfolding (k + 1)) ((rev? t r).getD k 0) s (hr k hk')).mono fun ω hω => ?_
    refine hω.trans (le_of_eq ?_)
    congr 1
    unfold contracted
    congr 1
    ext a i
    simp only [Matrix.of_apply]
    rw [← hA] at hs
    rw [hs _ _ _ (unravel_inR i.2) a.2, ravel_unravel i.2]

theorem left_keeps (hg : ContinuousDraws P g) (env : Env ℝ) (hinv : ∀ r, 0 < r → env.invSqrt r ≠ 0) (A : ND ℝ)
    (kind : DRMKind) (hk : kind.Drawn) (r : List ℕ) (hl : r.length = A.shape.length - 1) (seed : ℕ)
    (hdis : ∀ i < A.shape.length - 1, ∀ j < A.shape.length - 1, env.genState (seed % (2 ^ 32 - 1)) A.shape.length i
      = env.genState (seed % (2 ^ 32 - 1)) A.shape.length j → i = j)
    (hr : ∀ k < A.shape.length - 1, (A.unfolding (k + 1)).rank ≤ r.getD k 0) :
    ∀ᵐ ω ∂P, ∀ k < A.shape.length - 1, (A.unfolding (k + 1)).rank ≤ (Matrix.of (fun (a : Fin (r.getD k 0))
      (i : Fin (A.shape.take (k + 1)).prod) => (madeDRM (env.withDraws (g ω)) kind A.shape false seed r).leftMats
        (env.withDraws (g ω)) (k + 1) (unravel (A.shape.take (k + 1)) i) a) * A.unfolding (k + 1)).rank := by
  rw [ae_all_iff]
  intro k
  rw [Filter.eventually_imp_distrib_left]
  intro hk'
  exact made_keeps hg env hinv A (t := false) rfl kind hk r hl seed hdis hr k hk'

theorem right_keeps (hg : ContinuousDraws P g) (env : Env ℝ) (hinv : ∀ r, 0 < r → env.invSqrt r ≠ 0) (A : ND ℝ)
    (kind : DRMKind) (hk : kind.Drawn) (r : List ℕ) (hl : r.length = A.shape.length - 1) (seed : ℕ)
    (hdis : ∀ i < A.shape.length - 1, ∀ j < A.shape.length - 1, env.genState (seed % (2 ^ 32 - 1)) A.shape.length i
      = env.genState (seed % (2 ^ 32 - 1)) A.shape.length j → i = j)
    (hr : ∀ k < A.shape.length - 1, (A.unfolding (k + 1)).rank ≤ r.getD k 0) :
    ∀ᵐ ω ∂P, ∀ k < A.shape.length - 1, (A.unfolding (k + 1)).rank ≤ (A.unfolding (k + 1) * Matrix.of
      (fun (j : Fin (A.shape.drop (k + 1)).prod) (b : Fin (r.getD k 0)) =>
        (madeDRM (env.withDraws (g ω)) kind A.shape true seed r).rightMats (env.withDraws (g ω)) (k + 1)
          (unravel (A.shape.drop (k + 1)) j) b)).rank := by
  rw [ae_all_iff]
  intro k
  rw [Filter.eventually_imp_distrib_left]
  intro hk'
  have hrev : ∀ j < A.shape.length - 1, ((revND A).unfolding (j + 1)).rank ≤ (rev? true r).getD j 0 := by
    intro j hj
    rw [rev?_getD _ _ _ (by omega), revND_rank A (k := A.shape.length - 1 - j) (by omega)]
    obtain ⟨m, hm⟩ : ∃ m, A.shape.length - 1 - j = m + 1 := ⟨A.shape.length - 2 - j, by omega⟩
    rw [hm]
    have e : (if true = true then r.length - 1 - j else j) = m := by simp; omega
    rw [e]
    exact hr m (by omega)
  have := made_keeps hg env hinv (revND A) (t := true) rfl kind hk r hl seed hdis hrev (A.shape.length - 2 - k) (by omega)
  refine this.mono fun ω hω => ?_
  have e1 : A.shape.length - 2 - k + 1 = A.shape.length - 1 - k := by omega
  have e2 : (rev? true r).getD (A.shape.length - 2 - k) 0 = r.getD k 0 := by
    rw [rev?_getD _ _ _ (by omega)]
    congr 1
    simp; omega
  rw [e2] at hω
  refine right_rank A (k := k + 1) (m := A.shape.length - 2 - k + 1) (by omega) _ _ (fun q b => ?_) hω
  show (if k + 1 = A.shape.length then 1 else _) = _
  rw [if_neg (by omega)]
  show DRM.entry _ _ (A.shape.length - 1 - (k + 1)) _ _ = _
  congr 1
  omega

/-- As the right matrices of a dense Gaussian DRM are applied to dense arrays. -/
theorem right_keeps_dense (hg : ContinuousDraws P g) (env : Env ℝ) (A : ND ℝ) (r : List ℕ)
    (hl : r.length = A.shape.length - 1) (seed : ℕ)
    (hr : ∀ k < A.shape.length - 1, (A.unfolding (k + 1)).rank ≤ r.getD k 0) :
    ∀ᵐ ω ∂P, ∀ k < A.shape.length - 1, (A.unfolding (k + 1)).rank ≤ (A.unfolding (k + 1) * Matrix.of
      (fun (j : Fin (A.shape.drop (k + 1)).prod) (b : Fin (r.getD k 0)) =>
        (madeDRM (env.withDraws (g ω)) .denseGaussian A.shape true seed r).rightMatsDense (env.withDraws (g ω)) (k + 1)
          (unravel (A.shape.drop (k + 1)) j) b)).rank := by
  rw [ae_all_iff]
  intro k
  rw [Filter.eventually_imp_distrib_left]
  intro hk'
  obtain ⟨s, hs⟩ := made_dense_entry env A.shape true seed r (A.shape.length - 1 - (k + 1)) (by omega)
  have e0 : (rev? true A.shape).take (A.shape.length - 1 - (k + 1) + 1) = (A.shape.drop (k + 1)).reverse := by
    show A.shape.reverse.take _ = _
    rw [List.take_reverse]; congr 2; omega
  have e2 : (rev? true r).getD (A.shape.length - 1 - (k + 1)) 0 = r.getD k 0 := by
    rw [rev?_getD _ _ _ (by omega)]
    congr 1
    simp; omega
  rw [e0, e2] at hs
  refine (gauss_keeps hg (A.unfolding (k + 1)).transpose (r.getD k 0) s
    (by rw [Matrix.rank_transpose]; exact hr k hk')).mono fun ω hω => ?_
  rw [Matrix.rank_transpose] at hω
  refine hω.trans (le_of_eq ?_)
  rw [← Matrix.rank_transpose, Matrix.transpose_mul, Matrix.transpose_transpose]
  congr 2
  ext j b
  simp only [Matrix.of_apply, Matrix.transpose_apply]
  have hj : ravel (A.shape.drop (k + 1)) (unravel (A.shape.drop (k + 1)) j) < (A.shape.drop (k + 1)).reverse.prod := by
    rw [ravel_unravel j.2, List.prod_reverse]; exact j.2
  show _ = if k + 1 = A.shape.length then 1 else _
  rw [if_neg (by omega)]
  show _ = DRM.entry _ _ (A.shape.length - 1 - (k + 1)) (unravel (A.shape.drop (k + 1)).reverse
    (ravel (A.shape.drop (k + 1)) (unravel (A.shape.drop (k + 1)) j))) b
  rw [hs _ _ _ (unravel_inR hj) b.2, ravel_unravel hj, ravel_unravel j.2, List.prod_reverse]

/-- Both sides together: the rank of `Omega`. -/
theorem omega_rank {A : ND ℝ} {L R : Mats ℝ} {mu l r : ℕ}
    (h1 : (A.unfolding (mu + 1)).rank ≤ (Matrix.of (fun (a : Fin l) (i : Fin (A.shape.take (mu + 1)).prod) =>
      L (mu + 1) (unravel (A.shape.take (mu + 1)) i) a) * A.unfolding (mu + 1)).rank)
    (h2 : (A.unfolding (mu + 1)).rank ≤ (A.unfolding (mu + 1) * Matrix.of
      (fun (j : Fin (A.shape.drop (mu + 1)).prod) (b : Fin r) => R (mu + 1) (unravel (A.shape.drop (mu + 1)) j) b)).rank) :
    (Matrix.of fun (a : Fin l) (b : Fin r) => omegaSpec A.shape A.get L R mu a b).rank = (A.unfolding (mu + 1)).rank := by
  set X := Matrix.of fun (a : Fin l) (i : Fin (A.shape.take (mu + 1)).prod) =>
      L (mu + 1) (unravel (A.shape.take (mu + 1)) i) a with hX
  set Y := Matrix.of fun (j : Fin (A.shape.drop (mu + 1)).prod) (b : Fin r) =>
      R (mu + 1) (unravel (A.shape.drop (mu + 1)) j) b with hY
  have e : (Matrix.of fun (a : Fin l) (b : Fin r) => omegaSpec A.shape A.get L R mu a b)
      = X * A.unfolding (mu + 1) * Y := by
    ext a b
    rw [Matrix.mul_apply]
    show omegaSpec _ _ _ _ _ _ _ = _
    rw [omegaSpec_left, sumIdx_fin]
    refine sum_congr rfl fun j _ => ?_
    congr 1
    rw [Matrix.mul_apply, pcL, sumIdx_fin]
    rfl
  rw [e]
  obtain ⟨W, hW⟩ := exists_left_factor (A.unfolding (mu + 1)) X (le_antisymm (Matrix.rank_mul_le_right _ _) h1)
  refine le_antisymm ((Matrix.rank_mul_le_left _ _).trans (Matrix.rank_mul_le_right _ _)) (h2.trans ?_)
  conv_lhs => rw [← hW, Matrix.mul_assoc]
  exact Matrix.rank_mul_le_right _ _

end TTS
