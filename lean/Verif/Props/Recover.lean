import Verif.Proofs.Assemble
import Verif.Proofs.Contracts
import Verif.Props.Sketch

/-!
# Properties C39-C42: from a sketch back to the tensor

`LstsqContract`, `QRContract` (what is assumed of scipy), `ND.unfolding`, `ND.asMatrix` and `ND.LeftOrthogonal` are in
`Spec/Contract.lean`.
-/

namespace TTS.Props

open TTS Finset

/-! ## C40 -/

section
variable {K : Type*} [CommRing K]

theorem zip_swap_all (a b : List ℕ) : ((b.zip a).all fun p => decide (p.1 < p.2)) = (a.zip b).all fun p => decide (p.1 > p.2) := by
  induction a generalizing b with
  | nil => cases b <;> rfl
  | cons x a ih =>
    cases b with
    | nil => rfl
    | cons y b => simp only [List.zip_cons_cons, List.all_cons, ih]

theorem assemble_auto (env : Env K) (s : Container K) : assemble env s .auto
    = if (s.leftRank.zip s.rightRank).all (fun p => decide (p.1 > p.2)) then assembleLeft env s
      else assembleRight env s := rfl

theorem cores_rank {cs : List (ND K)} {rk : List ℕ} {n : ℕ → ℕ} (h : Cores cs (fun k => (1 :: rk ++ [1]).getD k 0) n)
    (hl : cs.length = rk.length + 1) : (TT.mk cs).rank = rk := by
  refine List.ext_getElem (by simp [TT.rank, hl]) fun k h1 h2 => ?_
  have := h (k + 1) (by omega)
  rw [getD_eq (by omega)] at this
  simp only [TT.rank, List.getElem_map, List.getElem_tail, ND.dim, this]
  rw [List.getD_cons_zero, aug_right h2, getD_eq h2]

theorem cores_tt {cs : List (ND K)} {rk sh : List ℕ}
    (h : Cores cs (fun k => (1 :: rk ++ [1]).getD k 0) fun k => sh.getD k 0)
    (hd : 1 ≤ sh.length) (hl : cs.length = sh.length) (hr : rk.length = sh.length - 1) :
    (TT.mk cs).Valid ∧ (TT.mk cs).shape = sh ∧ (TT.mk cs).rank = rk :=
  ⟨h.valid rfl (by omega) (aug_last (by omega)), by rw [h.ttShape, hl, ND.map_range_getD], cores_rank h (by omega)⟩

/-- **C40.** `C_cores("right")` is a tensor train of the tensor's shape with TT ranks `left_rank`, `C_cores("left")`
one with TT ranks `right_rank`; `"auto"` takes the direction with the smaller ranks (on every bond), and any other
string is rejected.  `S` is any streaming sketch; so also any result of updating one (`C37_history`). -/
theorem C40_cores (env : Env K) (hE : LstsqContract env) (X : Tensor K) (lrank rrank : RankArg) (kw : SketchKw K)
    (S : Sketched K) (hkw : kw.Good) (hX : X.Valid) (nX : X.NonEmpty) (hd : 2 ≤ X.shape.length)
    (h : streamSketch env X lrank rrank kw = .ok S) :
    (∃ cs, S.cCores env .right = .ok cs ∧ (TT.mk cs).Valid ∧ (TT.mk cs).shape = X.shape ∧
      (TT.mk cs).rank = S.leftRank) ∧
    (∃ cs, S.cCores env .left = .ok cs ∧ (TT.mk cs).Valid ∧ (TT.mk cs).shape = X.shape ∧
      (TT.mk cs).rank = S.rightRank) ∧
    (∃ Y, S.toTT env = .ok Y ∧ Y.Valid ∧ Y.shape = X.shape ∧ Y.rank.length = X.shape.length - 1 ∧
      ∀ k < X.shape.length - 1, Y.rank.getD k 0 = min (S.leftRank.getD k 0) (S.rightRank.getD k 0)) ∧
    (S.toTT env = (S.cCores env .left).map TT.mk ∨ S.toTT env = (S.cCores env .right).map TT.mk) ∧
    S.cCores env .other = .error .valueError := by
  obtain ⟨hs, -, -, -, hl, hr⟩ := C38_shapes env X lrank rrank kw S hkw hX nX hd h
  obtain ⟨hS, -⟩ := stream_inv hkw hX nX hd h
  have ho := hS.ordered
  obtain ⟨c1, a1, b1, d1, -⟩ := assembleRight_spec hE (by omega) hl hr hs
  obtain ⟨c2, a2, b2, d2, -⟩ := assembleLeft_spec hE (by omega) hr hs
  have e1 := cores_tt d1 (by omega) b1 hl
  have e2 := cores_tt d2 (by omega) b2 hr
  have hall : ((S.sketch.leftRank.zip S.sketch.rightRank).all fun p => decide (p.1 > p.2)) = true
      ↔ ∀ k < X.shape.length - 1, S.rightRank.getD k 0 < S.leftRank.getD k 0 := by
    rw [hs.left, hs.right]
    rw [← zip_swap_all, zip_all hr hl, decide_eq_true_iff]
  refine ⟨⟨c1, a1, e1⟩, ⟨c2, a2, e2⟩, ?_, ?_, rfl⟩
  · by_cases hb : ∀ k < X.shape.length - 1, S.rightRank.getD k 0 < S.leftRank.getD k 0
    · refine ⟨⟨c2⟩, ?_, e2.1, e2.2.1, by rw [e2.2.2, hr], fun k hk => ?_⟩
      · unfold Sketched.toTT Sketched.cCores
        rw [assemble_auto, if_pos (hall.2 hb), a2]; rfl
      · rw [e2.2.2, min_eq_right (hb k hk).le]
    · refine ⟨⟨c1⟩, ?_, e1.1, e1.2.1, by rw [e1.2.2, hl], fun k hk => ?_⟩
      · unfold Sketched.toTT Sketched.cCores
        rw [assemble_auto, if_neg (fun h => hb (hall.1 h)), a1]; rfl
      · rw [e1.2.2, min_eq_left]
        rcases ho with ho | ho
        · exact (ho k hk).le
        · exact absurd ho hb
  · unfold Sketched.toTT Sketched.cCores
    rw [assemble_auto]
    split
    · left; rfl
    · right; rfl

end

/-! ## C39 -/

section
variable {K : Type*} [Field K]

/-- Recovery of an array from its sketch. -/
theorem recover_sketch {env : Env K} (hE : LstsqContract env) {A : ND K} {lr rr : List ℕ} {L R : Mats K}
    (hd : 1 ≤ A.shape.length) (hl : lr.length = A.shape.length - 1) (hr : rr.length = A.shape.length - 1)
    (hL : ∀ a, L 0 [] a = 1) (hR : ∀ b, R A.shape.length [] b = 1)
    (hrank : ∀ mu < A.shape.length - 1,
      (((sketchOf A.shape A.get L R lr rr).omega.getD mu (ND.zeros [])).asMatrix (lr.getD mu 0) (rr.getD mu 0)).rank
        = (A.unfolding (mu + 1)).rank) (dir : Direction) (hdir : dir ≠ .other) :
    ∃ cs, assemble env (sketchOf A.shape A.get L R lr rr) dir = .ok cs ∧ (TT.mk cs).Valid ∧
      (TT.mk cs).toNumpy = A := by
  have hspan : ∀ mu < A.shape.length - 1, RowSpan A.shape A.get L (mu + 1) (lr.getD mu 0) ∧
      ColSpan A.shape A.get R (mu + 1) (rr.getD mu 0) := by
    intro mu hmu
    refine spans_of_rank A L R mu _ _ ?_
    rw [← hrank mu hmu]
    congr 1
    ext a b
    exact (sketchOf_omega_get hmu a.2 b.2).symm
  have fin : ∀ cs : List (ND K), (TT.mk cs).Valid ∧ (TT.mk cs).shape = A.shape ∧
      (∀ i, InR A.shape i → ttEntry (TT.mk cs) i = A.get i) → (TT.mk cs).Valid ∧ (TT.mk cs).toNumpy = A := by
    rintro cs ⟨h1, h2, h3⟩
    refine ⟨h1, ND.ext' (by rw [TT.toNumpy_shape h1, h2]) fun i hi => ?_⟩
    rw [TT.toNumpy_shape h1, h2] at hi
    rw [TT.toNumpy_get h1, h3 i hi]
  obtain ⟨c1, a1, b1⟩ := recover_right hE hd hl hr hL hR (fun mu hmu => (hspan mu hmu).1) (fun mu hmu => (hspan mu hmu).2)
  obtain ⟨c2, a2, b2⟩ := recover_left hE hd hr hL hR (fun mu hmu => (hspan mu hmu).1) (fun mu hmu => (hspan mu hmu).2)
  cases dir with
  | auto =>
    rw [assemble_auto]
    split
    · exact ⟨c2, a2, fin c2 b2⟩
    · exact ⟨c1, a1, fin c1 b1⟩
  | left => exact ⟨c2, a2, fin c2 b2⟩
  | right => exact ⟨c1, a1, fin c1 b1⟩
  | other => exact absurd rfl hdir

/-- **C39.** If every `Omega[mu]` of the streaming sketch has the rank of the corresponding unfolding of the tensor,
then `C_cores` (in each direction) and `to_tt` give the original tensor exactly.  Formats as in `C33_streaming`. -/
theorem C39_recovery (env : Env K) (hE : LstsqContract env) (X : Tensor K) (lrank rrank : RankArg) (kw : SketchKw K)
    (S : Sketched K) (hkw : kw.Good) (hX : X.Valid) (hne : X.NonEmpty) (hd : 2 ≤ X.shape.length) (hdist : X.Distinct)
    (hx : ∀ t ∈ X.summands, t.RightExact) (h : streamSketch env X lrank rrank kw = .ok S)
    (hrank : ∀ mu < X.shape.length - 1,
      ((S.sketch.omega.getD mu (ND.zeros [])).asMatrix (S.leftRank.getD mu 0) (S.rightRank.getD mu 0)).rank
        = (X.toNumpy.unfolding (mu + 1)).rank) :
    (∀ dir, dir ≠ Direction.other → ∃ cs, S.cCores env dir = .ok cs ∧ (TT.mk cs).Valid ∧
      (TT.mk cs).toNumpy = X.toNumpy) ∧
    ∃ Y, S.toTT env = .ok Y ∧ Y.Valid ∧ Y.toNumpy = X.toNumpy := by
  have e := C33_streaming env X lrank rrank kw S hkw hX hne hd hdist hx h
  obtain ⟨-, -, -, -, hl, hr⟩ := C38_shapes env X lrank rrank kw S hkw hX hne hd h
  obtain ⟨hS, -⟩ := stream_inv hkw hX hne hd h
  have hsh := Tensor.toNumpy_shape hX
  rw [← hsh] at e hl hr hd
  rw [← hsh, e] at hrank
  have key := fun dir hdir => recover_sketch hE (by omega) hl hr (fun a => rfl)
    (fun b => by rw [rightMats_last env (by rw [hsh, hS.accR.shape])]) hrank dir hdir
  have key' : ∀ dir, dir ≠ Direction.other → ∃ cs, S.cCores env dir = .ok cs ∧ (TT.mk cs).Valid ∧
      (TT.mk cs).toNumpy = X.toNumpy := by
    intro dir hdir
    unfold Sketched.cCores
    rw [e]
    exact key dir hdir
  refine ⟨key', ?_⟩
  obtain ⟨cs, h1, h2, h3⟩ := key' .auto (by decide)
  exact ⟨⟨cs⟩, by rw [Sketched.toTT, h1]; rfl, h2, h3⟩

/-- **C39, dense arrays** with any number of modes. -/
theorem C39_dense (env : Env K) (hE : LstsqContract env) (X : ND K) (lrank rrank : RankArg) (kw : SketchKw K)
    (S : Sketched K) (hkw : kw.Good) (hd : 2 ≤ X.shape.length)
    (h : streamSketch env (.leaf (.dense X)) lrank rrank kw = .ok S)
    (hrank : ∀ mu < X.shape.length - 1,
      ((S.sketch.omega.getD mu (ND.zeros [])).asMatrix (S.leftRank.getD mu 0) (S.rightRank.getD mu 0)).rank
        = (X.unfolding (mu + 1)).rank) :
    (∀ dir, dir ≠ Direction.other → ∃ cs, S.cCores env dir = .ok cs ∧ (TT.mk cs).Valid ∧ (TT.mk cs).toNumpy = X) ∧
    ∃ Y, S.toTT env = .ok Y ∧ Y.Valid ∧ Y.toNumpy = X := by
  have e := C33_dense env X lrank rrank kw S hkw hd h
  obtain ⟨-, -, -, -, hl, hr⟩ := C38_shapes env (.leaf (.dense X)) lrank rrank kw S hkw trivial trivial hd h
  obtain ⟨hS, -⟩ := stream_inv (X := .leaf (.dense X)) hkw trivial trivial hd h
  have hsh : X.shape = S.right.shape := hS.accR.shape
  rw [e] at hrank
  have key' : ∀ dir, dir ≠ Direction.other → ∃ cs, S.cCores env dir = .ok cs ∧ (TT.mk cs).Valid ∧
      (TT.mk cs).toNumpy = X := by
    intro dir hdir
    unfold Sketched.cCores
    rw [e]
    exact recover_sketch hE (by omega) hl hr (fun a => rfl)
      (fun b => by rw [rightMatsDense_last env (by rw [hsh])]) hrank dir hdir
  refine ⟨key', ?_⟩
  obtain ⟨cs, h1, h2, h3⟩ := key' .auto (by decide)
  exact ⟨⟨cs⟩, by rw [Sketched.toTT, h1]; rfl, h2, h3⟩

/-- `Omega[mu]` never has a larger rank than the unfolding. -/
theorem omega_rank_le {A : ND K} {lr rr : List ℕ} {L R : Mats K} {mu : ℕ} (hmu : mu < A.shape.length - 1) :
    (((sketchOf A.shape A.get L R lr rr).omega.getD mu (ND.zeros [])).asMatrix (lr.getD mu 0) (rr.getD mu 0)).rank
      ≤ (A.unfolding (mu + 1)).rank := by
  have e : ((sketchOf A.shape A.get L R lr rr).omega.getD mu (ND.zeros [])).asMatrix (lr.getD mu 0) (rr.getD mu 0)
      = (Matrix.of fun (a : Fin (lr.getD mu 0)) (i : Fin (A.shape.take (mu + 1)).prod) =>
          L (mu + 1) (unravel (A.shape.take (mu + 1)) i) a) * A.unfolding (mu + 1)
        * Matrix.of fun (j : Fin (A.shape.drop (mu + 1)).prod) (b : Fin (rr.getD mu 0)) =>
          R (mu + 1) (unravel (A.shape.drop (mu + 1)) j) b := by
    ext a b
    rw [Matrix.mul_apply]
    show ND.get _ [_, _] = _
    rw [sketchOf_omega_get hmu a.2 b.2, omegaSpec_left, sumIdx_fin]
    refine sum_congr rfl fun j _ => ?_
    congr 1
    rw [Matrix.mul_apply, pcL, sumIdx_fin]
    rfl
  rw [e]
  exact (Matrix.rank_mul_le_left _ _).trans (Matrix.rank_mul_le_right _ _)

end

/-! A tensor with three modes and one stored entry, sketched with tensor train DRMs of ranks 1 and 2. -/

/-- an environment over a field; least squares by choice -/
noncomputable def env7 : Env ℚ where
  ndtri m := m
  freshSeed := 5
  seedOffset _ n := n
  normalStream _ _ := 1
  genState s _ i := s + i
  randomNormal _ _ k := k + 1
  invSqrt _ := 1
  lstsq := lstsqChoice
  qr A := (A, A)
  strHash d := d

def x7 : Sparse ℚ := ⟨[2, 3, 2], [([1, 2, 0], 3)]⟩

theorem unfolding_single {K : Type*} [Field K] {A : ND K} {i0 : List ℕ} (h0 : InR A.shape i0)
    (h : ∀ i, A.get i = if i = i0 then A.get i0 else 0) (k : ℕ) : (A.unfolding k).rank ≤ 1 := by
  classical
  have e : A.unfolding k = Matrix.vecMulVec (fun i : Fin _ => if unravel (A.shape.take k) i = i0.take k then A.get i0 else 0)
      (fun j : Fin _ => if unravel (A.shape.drop k) j = i0.drop k then 1 else 0) := by
    ext i j
    rw [Matrix.vecMulVec_apply]
    show A.get (_ ++ _) = _
    rw [h]
    have hl : (unravel (A.shape.take k) i).length = (i0.take k).length := by
      rw [unravel_length, List.length_take, List.length_take, h0.length]
    by_cases h1 : unravel (A.shape.take k) i = i0.take k
    · by_cases h2 : unravel (A.shape.drop k) j = i0.drop k
      · rw [h1, h2, List.take_append_drop]; simp
      · rw [if_neg, if_neg h2, mul_zero]
        intro hh
        rw [← List.take_append_drop k i0] at hh
        exact h2 (List.append_inj_right hh hl)
    · rw [if_neg, if_neg h1, zero_mul]
      intro hh
      rw [← List.take_append_drop k i0] at hh
      exact h1 (List.append_inj_left hh hl)
  rw [e]
  exact Matrix.rank_vecMulVec_le _ _

theorem rank_ge_one {K : Type*} [Field K] {m n : ℕ} (M : Matrix (Fin m) (Fin n) K) (i : Fin m) (j : Fin n) (h : M i j ≠ 0) :
    1 ≤ M.rank := by
  by_contra hc
  have h0 : M.rank = 0 := by omega
  have h1 : LinearMap.range M.mulVecLin = ⊥ := Submodule.finrank_eq_zero.1 h0
  rw [LinearMap.range_eq_bot] at h1
  have h2 := congrFun (congrArg (fun f => f (Pi.single j 1)) h1) i
  apply h
  simpa [Matrix.mulVecLin_apply, Matrix.mulVec_single_one] using h2

theorem s7 : ∃ S, streamSketch env7 (.leaf (.sparse x7)) (.int 1) (.int 2) { seed := some 3 } = .ok S ∧
    (S.leftRank = [1, 1] ∧ S.rightRank = [2, 2]) ∧
    (S.sketch.omega.getD 0 (ND.zeros [])).get [0, 0] ≠ 0 ∧ (S.sketch.omega.getD 1 (ND.zeros [])).get [0, 0] ≠ 0 := by
  refine ⟨_, rfl, ⟨rfl, rfl⟩, ?_⟩
  decide +kernel

/-- `C39_recovery` applies: the sketch succeeds, every `Omega` has the rank (one) of the unfolding, and the tensor
train made from the sketch is the tensor. -/
theorem recover_x7 {env : Env ℚ} (hE : LstsqContract env) {S : Sketched ℚ} {kw : SketchKw ℚ}
    (hkw : kw.Good) (h1 : streamSketch env (.leaf (.sparse x7)) (.int 1) (.int 2) kw = .ok S)
    (hl : S.leftRank = [1, 1]) (hr : S.rightRank = [2, 2])
    (h2 : (S.sketch.omega.getD 0 (ND.zeros [])).get [0, 0] ≠ 0)
    (h3 : (S.sketch.omega.getD 1 (ND.zeros [])).get [0, 0] ≠ 0) :
    ∃ Y, S.toTT env = .ok Y ∧ Y.Valid ∧ Y.toNumpy = x7.toNumpy := by
  have hv : (Tensor.leaf (.sparse x7)).Valid := by
    intro e he
    simp only [x7, List.mem_cons, List.not_mem_nil, or_false] at he
    subst he; simp [x7]
  have hdist : (Tensor.leaf (.sparse x7)).Distinct := by
    simp [Tensor.Distinct, Leaf.Distinct, Sparse.Distinct, x7]
  have hx : ∀ t ∈ (Tensor.leaf (.sparse x7)).summands, t.RightExact := by
    intro t ht
    simp only [Tensor.summands, List.mem_cons, List.not_mem_nil, or_false] at ht
    subst ht; trivial
  refine (C39_recovery env hE (.leaf (.sparse x7)) _ _ _ S hkw hv
    trivial (by decide) hdist hx h1 fun mu hmu => ?_).2
  have e := C33_streaming env _ _ _ _ S hkw hv trivial (by decide) hdist hx h1
  have hsh := Tensor.toNumpy_shape hv
  have hmu' : mu < 2 := hmu
  have hle : ((S.sketch.omega.getD mu (ND.zeros [])).asMatrix (S.leftRank.getD mu 0) (S.rightRank.getD mu 0)).rank
      ≤ ((Tensor.leaf (.sparse x7)).toNumpy.unfolding (mu + 1)).rank := by
    rw [e, ← hsh]
    exact omega_rank_le (by rw [hsh]; exact hmu)
  refine le_antisymm hle (le_trans (unfolding_single (i0 := [1, 2, 0]) (by rw [hsh]; decide) ?_ _) ?_)
  · intro i
    show x7.toNumpy.get i = if _ then x7.toNumpy.get _ else 0
    rw [Sparse.toNumpy_get hv hdist, Sparse.toNumpy_get hv hdist]
    simp only [sparseEntry, x7, List.map_cons, List.map_nil, List.sum_cons, List.sum_nil, add_zero, if_true]
    by_cases hi : i = [1, 2, 0]
    · simp [hi]
    · rw [if_neg hi, if_neg (fun h => hi h.symm)]
  · rw [hl, hr]
    obtain rfl | rfl : mu = 0 ∨ mu = 1 := by omega
    · exact rank_ge_one _ (0 : Fin 1) (0 : Fin 2) h2
    · exact rank_ge_one _ (0 : Fin 1) (0 : Fin 2) h3

example : ∃ S, streamSketch env7 (.leaf (.sparse x7)) (.int 1) (.int 2) { seed := some 3 } = .ok S ∧
    ∃ Y, S.toTT env7 = .ok Y ∧ Y.Valid ∧ Y.toNumpy = x7.toNumpy := by
  obtain ⟨S, h1, ⟨hl, hr⟩, h2, h3⟩ := s7
  exact ⟨S, h1, recover_x7 (lstsqChoice_contract rfl) (SketchKw.good_none _ _ _) h1 hl hr h2 h3⟩

end TTS.Props
