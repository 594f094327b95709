import Verif.Proofs.Orth
import Verif.Props.Recover

/-!
# Properties C41-C43: `orthogonal_sketch` and `hmt_sketch`

`LstsqContract`, `QRContract` (what is assumed of scipy), `ND.unfolding`, `ND.asMatrix` and `ND.LeftOrthogonal` are in
`Spec/Contract.lean`; the matrices of a DRM and the defining contraction `sketchOf` in `Spec/Sketch.lean`.
-/

namespace TTS.Props

open TTS Finset

section
variable {K : Type*} [CommRing K]

/-! ### what successful calls have done -/

theorem streamsWith_exact {env : Env K} {X : Tensor K} {r : DRM K} (hX : X.Valid) (hr : r.AcceptsT X)
    (hrt : r.transpose = true) (hd : X.Distinct) (hx : ∀ t ∈ X.summands, t.RightExact) :
    StreamsWith env X r (r.rightMats env) :=
  fun _ hl hlt => streaming_spec hX hl hr hlt hrt hd hx

theorem streamsWith_dense {env : Env K} {X : ND K} {r : DRM K} (hr : r.AcceptsT (.leaf (.dense X)))
    (hrt : r.transpose = true) : StreamsWith env (.leaf (.dense X)) r (r.rightMatsDense env) := by
  intro l hl hlt
  have hl := hl.leaf
  have hr := hr.leaf
  have e := generalSketch_leaf (parts_of (env := env) hl hr hlt hrt trivial _
    (right_spec_dense env hr hrt) (rightMatsDense_last env (by rw [hr.shape])))
  rw [ofCores_sketchOf (accepts_ranks hl hr).1 (accepts_ranks hl hr).2] at e
  exact e

/-- What a successful `orthogonal_sketch` has done. -/
structure Orthed (env : Env K) (X : Tensor K) (Y : TT K) (l r : DRM K) : Prop where
  accL : l.AcceptsT X
  accR : r.AcceptsT X
  dirL : l.transpose = false
  dirR : r.transpose = true
  ordered : ∀ k < X.shape.length - 1, l.rank.getD k 0 < r.rank.reverse.getD k 0
  run : ∃ lc rc om, l.contr env X = .ok lc ∧ r.contr env X = .ok rc ∧
    omegas X l.rank r.rank.reverse lc rc = .ok om ∧ psisOrth env X l.rank r.rank.reverse (some om) rc = .ok Y.cores

theorem orth_inv {env : Env K} {X : Tensor K} {lrank rrank : RankArg} {kw : SketchKw K} {Y : TT K} {l r : DRM K}
    (hkw : kw.Good) (hX : X.Valid) (hne : X.NonEmpty) (hd : 2 ≤ X.shape.length)
    (h : orthogonalSketch env X lrank rrank kw = .ok (Y, l, r)) :
    Orthed env X Y l r ∧
    (∀ k < X.shape.length - 1, (ranksOf lrank X.shape.length).getD k 0 < (ranksOf rrank X.shape.length).getD k 0) ∧
    (ranksOf lrank X.shape.length).length = X.shape.length - 1 ∧
    (ranksOf rrank X.shape.length).length = X.shape.length - 1 ∧
    (∀ D, kw.left = some D → l = D ∧ lrank = .seq D.rank) ∧
    (∀ D, kw.right = some D → r = D ∧ rrank = .seq D.rank.reverse) ∧
    (kw.left = none → l.rank = trimRanks X.shape (ranksOf lrank X.shape.length)) ∧
    (kw.right = none → r.rank.reverse = ranksOf rrank X.shape.length) := by
  unfold orthogonalSketch at h
  obtain ⟨rb, hrb, h⟩ := andThen_ok h
  split at h
  · cases h
  next hb =>
  obtain ⟨l, hl, h⟩ := andThen_ok h
  obtain ⟨r, hr, h⟩ := andThen_ok h
  obtain ⟨s, hs, h⟩ := andThen_ok h
  injection h with h
  injection h with h1 h2
  injection h2 with h2 h3
  subst h1 h2 h3
  obtain ⟨l1, l2, l3, l4⟩ := leftDRM_inv hkw hd hl
  obtain ⟨r1, r2, r3, r4⟩ := rightDRM_inv hkw hd hr
  unfold generalSketch at hs
  obtain ⟨lc, c1, hs⟩ := andThen_ok hs
  obtain ⟨rc, c2, hs⟩ := andThen_ok hs
  obtain ⟨om, c3, hs⟩ := andThen_ok hs
  obtain ⟨psi, c4, hs⟩ := andThen_ok hs
  injection hs with hs
  subst hs
  obtain ⟨t0, ht0⟩ := List.exists_mem_of_ne_nil _ (Tensor.nonEmpty_summands hne)
  have hsl : X.shape = l.shape := by
    rw [← (Tensor.valid_summands hX t0 ht0).2]; exact contr_ok_shape c1 t0 ht0
  have hsr : X.shape = r.shape := by
    rw [← (Tensor.valid_summands hX t0 ht0).2]; exact contr_ok_shape c2 t0 ht0
  have accL := acceptsT_of l1 l2 hX hsl (contr_ok_supports c1)
  have accR := acceptsT_of r1 r2 hX hsr (contr_ok_supports c2)
  have lenL := l1.rankLen
  have lenR := r1.rankLen
  rw [← hsl] at lenL
  rw [← hsr] at lenR
  have la : (ranksOf lrank X.shape.length).length = X.shape.length - 1 := by
    rcases l4 with ⟨-, rfl⟩ | ⟨-, -, -, h, -⟩
    · exact lenL
    · omega
  have lb' : (ranksOf rrank X.shape.length).length = X.shape.length - 1 := by
    rcases r4 with ⟨-, rfl⟩ | ⟨-, -, -, h, -⟩
    · show r.rank.reverse.length = _
      rw [List.length_reverse]; exact lenR
    · omega
  have e2 := ranksLess_eq hd la lb'
  rw [hrb] at e2
  injection e2 with e2
  have hord : ∀ k < X.shape.length - 1,
      (ranksOf lrank X.shape.length).getD k 0 < (ranksOf rrank X.shape.length).getD k 0 := by
    have : rb = true := by simpa using hb
    rw [this] at e2; simpa using e2.symm
  have gl : ∀ k < X.shape.length - 1, l.rank.getD k 0 ≤ (ranksOf lrank X.shape.length).getD k 0 := by
    intro k hk
    rcases l4 with ⟨-, rfl⟩ | ⟨-, -, -, h, e⟩
    · exact le_refl _
    · rw [e, if_pos rfl]; exact trim_le h k (by omega)
  have gr : ∀ k < X.shape.length - 1, r.rank.reverse.getD k 0 = (ranksOf rrank X.shape.length).getD k 0 := by
    intro k hk
    rcases r4 with ⟨-, rfl⟩ | ⟨-, -, -, h, e⟩
    · rfl
    · rw [e]; rfl
  refine ⟨⟨accL, accR, l3, r3, fun k hk => ?_, lc, rc, om, c1, c2, c3, c4⟩, hord, la, lb', ?_, ?_, ?_, ?_⟩
  · have := gl k hk; have := gr k hk; have := hord k hk; omega
  · intro D hD
    rcases l4 with ⟨h1, h2⟩ | ⟨h1, -⟩
    · rw [hD] at h1; injection h1 with h1; subst h1; exact ⟨rfl, h2⟩
    · rw [hD] at h1; cases h1
  · intro D hD
    rcases r4 with ⟨h1, h2⟩ | ⟨h1, -⟩
    · rw [hD] at h1; injection h1 with h1; subst h1; exact ⟨rfl, h2⟩
    · rw [hD] at h1; cases h1
  · intro hD
    rcases l4 with ⟨h1, h2⟩ | ⟨-, -, -, -, h1⟩
    · rw [hD] at h1; cases h1
    · rw [h1, if_pos rfl]
  · intro hD
    rcases r4 with ⟨h1, h2⟩ | ⟨-, -, -, -, h1⟩
    · rw [hD] at h1; cases h1
    · rw [h1]; rfl

theorem Orthed.run' {env : Env K} {X : Tensor K} {Y : TT K} {l r : DRM K} (h : Orthed env X Y l r) (hX : X.Valid)
    {R : Mats K} (hS : StreamsWith env X r R) :
    OrthRun env X.shape X.toNumpy.get R l.rank r.rank.reverse
      (some (sketchOf X.shape X.toNumpy.get (l.leftMats env) R l.rank r.rank.reverse).omega) Y.cores X.shape.length := by
  obtain ⟨lc, rc, om, c1, c2, c3, c4⟩ := h.run
  have hd : 2 ≤ X.shape.length := by rw [h.accL.shape]; exact h.accL.wf.two
  obtain ⟨n1, n2⟩ := h.accL.ranks h.accR
  obtain ⟨lc', rc', q1, q2, q3, -⟩ := streaming_parts (hS l h.accL h.dirL)
  rw [c1] at q1
  rw [c2] at q2
  injection q1 with q1
  injection q2 with q2
  subst q1 q2
  rw [c3] at q3
  injection q3 with q3
  subst q3
  exact orth_fold (om := some _) hX hd hS n1 n2 c2 (sketchOf_hasShape X.shape X.toNumpy.get _ _ _ _).omega _ le_rfl _ c4

/-! ## C41: form of the result -/

theorem orth_form {env : Env K} (hE : LstsqContract env) (hQ : QRContract env) {sh : List ℕ} {f : List ℕ → K}
    {R : Mats K} {lr rr : List ℕ} {om : Option (List (ND K))} {Y : TT K} (hd : 2 ≤ sh.length)
    (h : OrthRun env sh f R lr rr om Y.cores sh.length)
    (hl : lr.length = sh.length - 1) (hr : rr.length = sh.length - 1) (hom : OmShapes lr rr sh.length om) :
    Y.Valid ∧ Y.shape = sh ∧ Y.rank = lr ∧
      ((∀ n ∈ sh, 0 < n) → (∀ r ∈ lr, 0 < r) →
        ∀ mu < sh.length - 1, (Y.cores.getD mu (ND.zeros [])).LeftOrthogonal) := by
  have hC := orthRun_shape h hl hr hom le_rfl
  obtain ⟨h1, h2, h3⟩ := cores_tt hC (by omega) h.len hl
  refine ⟨h1, h2, h3, fun p1 p2 => orthRun_orth hE hQ h hl hr hom fun mu hmu => ?_⟩
  have hn : 0 < sh.getD mu 0 := by
    rw [getD_eq (by omega)]; exact p1 _ (List.getElem_mem _)
  have hr : 0 < (1 :: lr).getD mu 0 := by
    cases mu with
    | zero => exact Nat.one_pos
    | succ k =>
      rw [List.getD_cons_succ, getD_eq (by omega)]; exact p2 _ (List.getElem_mem _)
  exact Nat.mul_pos hr hn

/-- **C41.** The result of `orthogonal_sketch` is a tensor train of the tensor's shape with the left ranks, all of
whose cores but the last are left-orthogonal.  Formats as in `C33_streaming`. -/
theorem C41_form (env : Env K) (hE : LstsqContract env) (hQ : QRContract env) (X : Tensor K) (lrank rrank : RankArg)
    (kw : SketchKw K) (Y : TT K) (l r : DRM K) (hkw : kw.Good) (hX : X.Valid) (hne : X.NonEmpty)
    (hd : 2 ≤ X.shape.length) (hdist : X.Distinct) (hx : ∀ t ∈ X.summands, t.RightExact)
    (h : orthogonalSketch env X lrank rrank kw = .ok (Y, l, r)) :
    Y.Valid ∧ Y.shape = X.shape ∧ Y.rank = l.rank ∧
      ((∀ n ∈ X.shape, 0 < n) → (∀ r ∈ l.rank, 0 < r) →
        ∀ mu < X.shape.length - 1, (Y.cores.getD mu (ND.zeros [])).LeftOrthogonal) := by
  obtain ⟨hO, -⟩ := orth_inv hkw hX hne hd h
  obtain ⟨n1, n2⟩ := hO.accL.ranks hO.accR
  exact orth_form hE hQ hd (hO.run' hX (streamsWith_exact hX hO.accR hO.dirR hdist hx)) n1 n2
    (sketchOf_hasShape X.shape X.toNumpy.get _ _ _ _).omega

/-- **C41, dense arrays** with any number of modes. -/
theorem C41_form_dense (env : Env K) (hE : LstsqContract env) (hQ : QRContract env) (X : ND K) (lrank rrank : RankArg)
    (kw : SketchKw K) (Y : TT K) (l r : DRM K) (hkw : kw.Good) (hd : 2 ≤ X.shape.length)
    (h : orthogonalSketch env (.leaf (.dense X)) lrank rrank kw = .ok (Y, l, r)) :
    Y.Valid ∧ Y.shape = X.shape ∧ Y.rank = l.rank ∧
      ((∀ n ∈ X.shape, 0 < n) → (∀ r ∈ l.rank, 0 < r) →
        ∀ mu < X.shape.length - 1, (Y.cores.getD mu (ND.zeros [])).LeftOrthogonal) := by
  obtain ⟨hO, -⟩ := orth_inv (X := .leaf (.dense X)) hkw trivial trivial hd h
  obtain ⟨n1, n2⟩ := hO.accL.ranks hO.accR
  exact orth_form hE hQ (sh := X.shape) (f := X.get) hd (hO.run' trivial (streamsWith_dense hO.accR hO.dirR)) n1 n2
    (sketchOf_hasShape X.shape X.get _ _ _ _).omega

end

/-! ## C41: recovery -/

section
variable {K : Type*} [Field K]

theorem tt_of_entries {A : ND K} {Y : TT K} (h1 : Y.Valid) (h2 : Y.shape = A.shape)
    (h3 : ∀ i, InR A.shape i → ttEntry Y i = A.get i) : Y.toNumpy = A := by
  refine ND.ext' (by rw [TT.toNumpy_shape h1, h2]) fun i hi => ?_
  rw [TT.toNumpy_shape h1, h2] at hi
  rw [TT.toNumpy_get h1, h3 i hi]

theorem positive_fit {sh lr : List ℕ} (p1 : ∀ n ∈ sh, 0 < n) (p2 : ∀ r ∈ lr, 0 < r) (hl : lr.length = sh.length - 1)
    (mu : ℕ) (hmu : mu < sh.length - 1) : 0 < (1 :: lr).getD mu 0 * sh.getD mu 0 := by
  have hn : 0 < sh.getD mu 0 := by
    rw [getD_eq (by omega)]; exact p1 _ (List.getElem_mem _)
  have hr : 0 < (1 :: lr).getD mu 0 := by
    cases mu with
    | zero => exact Nat.one_pos
    | succ k =>
      rw [List.getD_cons_succ, getD_eq (by omega)]; exact p2 _ (List.getElem_mem _)
  exact Nat.mul_pos hr hn

theorem orth_recover_of {env : Env K} (hE : LstsqContract env) (hQ : QRContract env) {A : ND K} {L R : Mats K}
    {lr rr : List ℕ} {Y : TT K} (hd : 2 ≤ A.shape.length)
    (h : OrthRun env A.shape A.get R lr rr (some (sketchOf A.shape A.get L R lr rr).omega) Y.cores A.shape.length)
    (hl : lr.length = A.shape.length - 1) (hr : rr.length = A.shape.length - 1)
    (hR : ∀ b, R A.shape.length [] b = 1) (p1 : ∀ n ∈ A.shape, 0 < n) (p2 : ∀ r ∈ lr, 0 < r)
    (hrank : ∀ mu < A.shape.length - 1,
      (((sketchOf A.shape A.get L R lr rr).omega.getD mu (ND.zeros [])).asMatrix (lr.getD mu 0) (rr.getD mu 0)).rank
        = (A.unfolding (mu + 1)).rank) : Y.toNumpy = A := by
  have hspan : ∀ mu < A.shape.length - 1, RowSpan A.shape A.get L (mu + 1) (lr.getD mu 0) ∧
      ColSpan A.shape A.get R (mu + 1) (rr.getD mu 0) := by
    intro mu hmu
    refine spans_of_rank A L R mu _ _ ?_
    rw [← hrank mu hmu]
    congr 1
    ext a b
    exact (sketchOf_omega_get hmu a.2 b.2).symm
  obtain ⟨f1, f2, -⟩ := orth_form hE hQ hd h hl hr (sketchOf_hasShape A.shape A.get _ _ _ _).omega
  exact tt_of_entries f1 f2 (orth_recover hE hQ h (by omega) hl hr hR (positive_fit p1 p2 hl)
    (fun mu hmu => (hspan mu hmu).1) fun mu hmu => (hspan mu hmu).2)

/-- **C41.** If the contraction of the tensor with the left matrix on the first `mu + 1` modes and with the right
matrix on the others has the rank of the unfolding, for every `mu`, then `orthogonal_sketch` returns a tensor train
denoting exactly the tensor. -/
theorem C41_recovery (env : Env K) (hE : LstsqContract env) (hQ : QRContract env) (X : Tensor K)
    (lrank rrank : RankArg) (kw : SketchKw K) (Y : TT K) (l r : DRM K) (hkw : kw.Good) (hX : X.Valid)
    (hne : X.NonEmpty) (hd : 2 ≤ X.shape.length) (hdist : X.Distinct) (hx : ∀ t ∈ X.summands, t.RightExact)
    (p1 : ∀ n ∈ X.shape, 0 < n) (p2 : ∀ r ∈ l.rank, 0 < r)
    (h : orthogonalSketch env X lrank rrank kw = .ok (Y, l, r))
    (hrank : ∀ mu < X.shape.length - 1,
      (Matrix.of fun (a : Fin (l.rank.getD mu 0)) (b : Fin (r.rank.reverse.getD mu 0)) =>
        omegaSpec X.shape X.toNumpy.get (l.leftMats env) (r.rightMats env) mu a b).rank
      = (X.toNumpy.unfolding (mu + 1)).rank) : Y.toNumpy = X.toNumpy := by
  obtain ⟨hO, -⟩ := orth_inv hkw hX hne hd h
  obtain ⟨n1, n2⟩ := hO.accL.ranks hO.accR
  have hsh := Tensor.toNumpy_shape hX
  have hr := hO.run' hX (streamsWith_exact hX hO.accR hO.dirR hdist hx)
  have hs := hO.accR.shape
  rw [← hsh] at hr n1 n2 hd p1 hrank hs
  refine orth_recover_of hE hQ hd hr n1 n2 (fun b => by rw [rightMats_last env (by rw [hs])]) p1 p2 fun mu hmu => ?_
  rw [← hrank mu hmu]
  congr 1
  ext a b
  exact sketchOf_omega_get hmu a.2 b.2

/-- **C41, dense arrays** with any number of modes. -/
theorem C41_recovery_dense (env : Env K) (hE : LstsqContract env) (hQ : QRContract env) (X : ND K)
    (lrank rrank : RankArg) (kw : SketchKw K) (Y : TT K) (l r : DRM K) (hkw : kw.Good)
    (hd : 2 ≤ X.shape.length) (p1 : ∀ n ∈ X.shape, 0 < n) (p2 : ∀ r ∈ l.rank, 0 < r)
    (h : orthogonalSketch env (.leaf (.dense X)) lrank rrank kw = .ok (Y, l, r))
    (hrank : ∀ mu < X.shape.length - 1,
      (Matrix.of fun (a : Fin (l.rank.getD mu 0)) (b : Fin (r.rank.reverse.getD mu 0)) =>
        omegaSpec X.shape X.get (l.leftMats env) (r.rightMatsDense env) mu a b).rank
      = (X.unfolding (mu + 1)).rank) : Y.toNumpy = X := by
  obtain ⟨hO, -⟩ := orth_inv (X := .leaf (.dense X)) hkw trivial trivial hd h
  obtain ⟨n1, n2⟩ := hO.accL.ranks hO.accR
  have hr := hO.run' trivial (streamsWith_dense hO.accR hO.dirR)
  have hs : X.shape = r.shape := hO.accR.shape
  refine orth_recover_of hE hQ (A := X) hd hr n1 n2 (fun b => by rw [rightMatsDense_last env (by rw [hs])]) p1 p2
    fun mu hmu => ?_
  rw [← hrank mu hmu]
  congr 1
  ext a b
  exact sketchOf_omega_get hmu a.2 b.2

end

/-! ## C41: valid calls succeed -/

section
variable {K : Type*} [CommRing K]

theorem process_ok {rank : RankArg} {shape : List ℕ} (trim : Bool) (hd : 1 ≤ shape.length)
    (h : (ranksOf rank shape.length).length = shape.length - 1) :
    processTTRank rank shape trim
      = .ok (if trim then trimRanks shape (ranksOf rank shape.length) else ranksOf rank shape.length) := by
  rw [process_eq, if_neg (by omega)]
  cases trim <;> rfl

/-- trimmed ranks leave room for the orthogonalisation -/
theorem trim_fit {sh rs : List ℕ} (h : rs.length + 1 = sh.length) (p1 : ∀ n ∈ sh, 0 < n) (p2 : ∀ r ∈ rs, 0 < r)
    (mu : ℕ) (hmu : mu < sh.length - 1) :
    (trimRanks sh rs).getD mu 0 ≤ (1 :: trimRanks sh rs).getD mu 0 * sh.getD mu 0 := by
  have hl := trimRanks_length sh rs h
  have := C03_left sh rs h p1 p2 mu (by omega)
  have e1 : (Spec.bonds (trimRanks sh rs)).getD (mu + 1) 0 = (trimRanks sh rs).getD mu 0 := by
    rw [Spec.bonds, List.getD_cons_succ, List.getD_append _ _ _ _ (by omega)]
  have e2 : (Spec.bonds (trimRanks sh rs)).getD mu 0 = (1 :: trimRanks sh rs).getD mu 0 := by
    cases mu with
    | zero => rfl
    | succ k => rw [Spec.bonds, List.getD_cons_succ, List.getD_cons_succ, List.getD_append _ _ _ _ (by omega)]
  rwa [e1, e2] at this

theorem trim_pos {sh rs : List ℕ} (h : rs.length + 1 = sh.length) (p1 : ∀ n ∈ sh, 0 < n) (p2 : ∀ r ∈ rs, 0 < r) :
    ∀ r ∈ trimRanks sh rs, 0 < r := by
  intro r hr
  obtain ⟨i, hi, rfl⟩ := List.mem_iff_getElem.1 hr
  have hl := trimRanks_length sh rs h
  have := C03_pos sh rs h p1 p2 i (by omega)
  rwa [getD_eq hi] at this

theorem right_seed_lt (sd : ℕ) (z : ℤ) : (((sd : ℤ) + z) % 2 ^ 32).toNat < 2 ^ 32 := by
  have := Int.emod_lt_of_pos ((sd : ℤ) + z) (b := 2 ^ 32) (by norm_num)
  have := Int.emod_nonneg ((sd : ℤ) + z) (b := 2 ^ 32) (by norm_num)
  omega

theorem orth_general_ok {env : Env K} (hE : LstsqShape env) (hQ : QRShape env) {X : Tensor K} {L R : DRM K}
    {Rm : Mats K} (hX : X.Valid) (aL : L.AcceptsT X) (aR : R.AcceptsT X) (dL : L.transpose = false)
    (hRm : StreamsWith env X R Rm)
    (hfit : ∀ mu < X.shape.length - 1, L.rank.getD mu 0 ≤ (1 :: L.rank).getD mu 0 * X.shape.getD mu 0) :
    ∃ C, generalSketch env X (some L) R .orthogonal = .ok C := by
  have hd : 2 ≤ X.shape.length := by rw [aL.shape]; exact aL.wf.two
  obtain ⟨n1, n2⟩ := aL.ranks aR
  obtain ⟨lc, rc, q1, q2, q3, -⟩ := streaming_parts (hRm L aL dL)
  obtain ⟨cs, hcs⟩ := orth_fold_ok (om := some _) (fun _ => hE) hQ hX hd hRm n1 n2 q2
    (sketchOf_hasShape X.shape X.toNumpy.get (L.leftMats env) Rm L.rank R.rank.reverse).omega hfit X.shape.length le_rfl
  refine ⟨Container.ofCores cs (sketchOf X.shape X.toNumpy.get (L.leftMats env) Rm L.rank R.rank.reverse).omega, ?_⟩
  unfold generalSketch
  simp only [q1, q2, q3, Except.andThen]
  unfold psisOrth
  rw [hcs]

/-- **C41, success with supplied DRMs** that fit the tensor: left ranks below the right ones and each left rank at most
the previous one times the mode size. -/
theorem C41_success_supplied (env : Env K) (hE : LstsqContract env) (hQ : QRContract env) (X : Tensor K) (l r : DRM K)
    (seed : Option ℕ) (lt rt : Option DRMKind) (hX : X.Valid) (hdist : X.Distinct)
    (hx : ∀ t ∈ X.summands, t.RightExact) (hl : l.AcceptsT X) (hr : r.AcceptsT X) (hlt : l.transpose = false)
    (hrt : r.transpose = true) (ho : ∀ k < X.shape.length - 1, l.rank.getD k 0 < r.rank.reverse.getD k 0)
    (hfit : ∀ mu < X.shape.length - 1, l.rank.getD mu 0 ≤ (1 :: l.rank).getD mu 0 * X.shape.getD mu 0) :
    ∃ Y, orthogonalSketch env X (.seq l.rank) (.seq r.rank.reverse) ⟨seed, lt, rt, some l, some r⟩ = .ok (Y, l, r) := by
  obtain ⟨n1, n2⟩ := hl.ranks hr
  have hd : 2 ≤ X.shape.length := by rw [hl.shape]; exact hl.wf.two
  obtain ⟨C, hC⟩ := orth_general_ok hE.lstsqShape hQ.qrShape hX hl hr hlt (streamsWith_exact hX hr hrt hdist hx) hfit
  unfold orthogonalSketch
  have e : ranksLess (.seq l.rank) (.seq r.rank.reverse) = .ok true := by
    rw [ranksLess_eq (a := .seq l.rank) (b := .seq r.rank.reverse) hd n1 n2]
    congr 1
    exact decide_eq_true ho
  rw [e]
  simp only [Except.andThen, leftDRM, rightDRM, if_true, hC]
  exact ⟨_, rfl⟩

/-- Fresh DRMs, any right matrices. -/
theorem orth_fresh {env : Env K} (hE : LstsqShape env) (hQ : QRShape env) {X : Tensor K} (lrank rrank : RankArg)
    (seed : Option ℕ) (lt rt : Option DRMKind) (hX : X.Valid) (hd : 2 ≤ X.shape.length)
    (hl : (ranksOf lrank X.shape.length).length = X.shape.length - 1)
    (hr : (ranksOf rrank X.shape.length).length = X.shape.length - 1)
    (ho : ∀ k < X.shape.length - 1, (ranksOf lrank X.shape.length).getD k 0 < (ranksOf rrank X.shape.length).getD k 0)
    (p1 : ∀ n ∈ X.shape, 0 < n) (p2 : ∀ r ∈ ranksOf lrank X.shape.length, 0 < r)
    (hseed : seed.getD 0 < 2 ^ 32)
    (hsup : ∀ t ∈ X.summands, ∀ D : DRMData K, (D.kind = lt.getD (rt.getD .tensorTrain) ∨
      D.kind = rt.getD (lt.getD .tensorTrain)) → D.supports t = true)
    (hS : ∀ r : DRM K, r.AcceptsT X → r.transpose = true → ∃ R, StreamsWith env X r R) :
    ∃ o, orthogonalSketch env X lrank rrank { seed := seed, leftType := lt, rightType := rt } = .ok o := by
  unfold orthogonalSketch
  rw [ranksLess_eq hd hl hr, decide_eq_true ho]
  simp only [Except.andThen]
  rw [if_neg (by decide)]
  have hfs : seed.getD (env.freshSeed % 2 ^ 32) < 2 ^ 32 := by
    cases seed with
    | none => exact Nat.mod_lt _ (by norm_num)
    | some s => exact hseed
  generalize seed.getD (env.freshSeed % 2 ^ 32) = sd at hfs
  simp only [leftDRM, rightDRM, process_ok true (by omega) hl, process_ok false (by omega) hr]
  have hl' : (ranksOf lrank X.shape.length).length + 1 = X.shape.length := by omega
  have ht := trimRanks_length X.shape _ hl'
  obtain ⟨L, h1, h2, h3, h4, h5, h6, -, h8⟩ := C29_new env (lt.getD (rt.getD .tensorTrain))
    (.seq (trimRanks X.shape (ranksOf lrank X.shape.length))) X.shape false
    (some sd) hd (by show (trimRanks _ _).length = _; omega) (fun _ => hfs)
  obtain ⟨R, k1, k2, k3, k4, k5, k6, -, k8⟩ := C29_new env (rt.getD (lt.getD .tensorTrain))
    (.seq (ranksOf rrank X.shape.length)) X.shape true
    (some (((sd : ℤ) + env.strHash X.shape.length) % 2 ^ 32).toNat) hd hr (fun _ => by exact right_seed_lt sd _)
  have aL := acceptsT_of h2 h3 hX h4.symm fun t ht => hsup t ht _ (.inl h6)
  have aR := acceptsT_of k2 k3 hX k4.symm fun t ht => hsup t ht _ (.inr k6)
  obtain ⟨Rm, hRm⟩ := hS R aR k5
  have hLr : L.rank = trimRanks X.shape (ranksOf lrank X.shape.length) := by rw [h8]; rfl
  obtain ⟨C, e⟩ := orth_general_ok hE hQ hX aL aR h5 hRm fun mu hmu => by
    rw [hLr]; exact trim_fit hl' p1 p2 mu hmu
  simp only [if_true, Bool.false_eq_true, if_false, h1, k1, e]
  exact ⟨_, rfl⟩

/-- **C41, success.** With freshly made DRMs of classes that support the tensor's formats, positive mode sizes and
ranks and left ranks below the right ones, `orthogonal_sketch` succeeds. -/
theorem C41_success (env : Env K) (hE : LstsqContract env) (hQ : QRContract env) (X : Tensor K) (lrank rrank : RankArg)
    (seed : Option ℕ) (lt rt : Option DRMKind) (hX : X.Valid) (hd : 2 ≤ X.shape.length)
    (hdist : X.Distinct) (hx : ∀ t ∈ X.summands, t.RightExact)
    (hl : (ranksOf lrank X.shape.length).length = X.shape.length - 1)
    (hr : (ranksOf rrank X.shape.length).length = X.shape.length - 1)
    (ho : ∀ k < X.shape.length - 1, (ranksOf lrank X.shape.length).getD k 0 < (ranksOf rrank X.shape.length).getD k 0)
    (p1 : ∀ n ∈ X.shape, 0 < n) (p2 : ∀ r ∈ ranksOf lrank X.shape.length, 0 < r)
    (hseed : seed.getD 0 < 2 ^ 32)
    (hsup : ∀ t ∈ X.summands, ∀ D : DRMData K, (D.kind = lt.getD (rt.getD .tensorTrain) ∨
      D.kind = rt.getD (lt.getD .tensorTrain)) → D.supports t = true) :
    ∃ Y l r, orthogonalSketch env X lrank rrank { seed := seed, leftType := lt, rightType := rt } = .ok (Y, l, r) := by
  obtain ⟨⟨Y, l, r⟩, h⟩ := orth_fresh hE.lstsqShape hQ.qrShape lrank rrank seed lt rt hX hd hl hr ho p1 p2 hseed hsup
    fun _ hr ht => ⟨_, streamsWith_exact hX hr ht hdist hx⟩
  exact ⟨Y, l, r, h⟩

/-- **C41, success, dense arrays** with any number of modes. -/
theorem C41_success_dense (env : Env K) (hE : LstsqContract env) (hQ : QRContract env) (X : ND K)
    (lrank rrank : RankArg) (seed : Option ℕ) (lt rt : Option DRMKind) (hd : 2 ≤ X.shape.length)
    (hl : (ranksOf lrank X.shape.length).length = X.shape.length - 1)
    (hr : (ranksOf rrank X.shape.length).length = X.shape.length - 1)
    (ho : ∀ k < X.shape.length - 1, (ranksOf lrank X.shape.length).getD k 0 < (ranksOf rrank X.shape.length).getD k 0)
    (p1 : ∀ n ∈ X.shape, 0 < n) (p2 : ∀ r ∈ ranksOf lrank X.shape.length, 0 < r)
    (hseed : seed.getD 0 < 2 ^ 32)
    (hsup : ∀ D : DRMData K, (D.kind = lt.getD (rt.getD .tensorTrain) ∨
      D.kind = rt.getD (lt.getD .tensorTrain)) → D.supports (.dense X) = true) :
    ∃ Y l r, orthogonalSketch env (.leaf (.dense X)) lrank rrank { seed := seed, leftType := lt, rightType := rt }
      = .ok (Y, l, r) := by
  obtain ⟨⟨Y, l, r⟩, h⟩ := orth_fresh hE.lstsqShape hQ.qrShape (X := .leaf (.dense X)) lrank rrank seed lt rt trivial hd hl hr ho p1 p2
    hseed (fun t ht D hD => by
      have : t = .dense X := by simpa [Tensor.summands] using ht
      subst this; exact hsup D hD)
    fun _ hr ht => ⟨_, streamsWith_dense hr ht⟩
  exact ⟨Y, l, r, h⟩

end

/-! ## C42 -/

section
variable {K : Type*} [CommRing K]

/-- What a successful `hmt_sketch` has done, with the DRM `D`. -/
structure Hmted (env : Env K) (X : Tensor K) (Y : TT K) (D : DRM K) : Prop where
  acc : D.AcceptsT X
  dir : D.transpose = true
  run : ∃ rc, D.contr env X = .ok rc ∧ psisOrth env X D.rank.reverse D.rank.reverse none rc = .ok Y.cores

/-- The DRM that `hmt_sketch` uses: made from the trimmed ranks, or the supplied one. -/
theorem hmtDRM_inv {env : Env K} {shape : List ℕ} {rank : RankArg} {seed : ℕ} {kind : Option DRMKind}
    {drm : Option (DRM K)} {D : DRM K} (hg : ∀ D, drm = some D → D.WF ∧ D.toDRMBase.Full ∧ D.transpose = true)
    (hd : 2 ≤ shape.length) (h : hmtDRM env shape rank seed kind drm = .ok D) :
    D.WF ∧ D.toDRMBase.Full ∧ D.transpose = true ∧
      (drm = some D ∧ rank = .seq D.rank.reverse ∨
       drm = none ∧ D.shape = shape ∧ D.data.kind = kind.getD .tensorTrain ∧
        (ranksOf rank shape.length).length + 1 = shape.length ∧
        D.rank.reverse = trimRanks shape (ranksOf rank shape.length)) := by
  unfold hmtDRM at h
  cases drm with
  | some D' =>
    simp only [] at h
    split_ifs at h with hr
    injection h with h
    subst h
    obtain ⟨h1, h2, h3⟩ := hg D' rfl
    exact ⟨h1, h2, h3, .inl ⟨rfl, hr.symm⟩⟩
  | none =>
    simp only [] at h
    cases hp : processTTRank rank shape true with
    | error e => rw [hp] at h; cases h
    | ok r =>
      rw [hp] at h
      obtain ⟨p1, hl, p2⟩ := process_ok_length hp
      obtain ⟨h1, h2, h3, h4, h5, -, h7⟩ := new_inv hd hl h
      exact ⟨h1, h2, h4, .inr ⟨rfl, h3, h5, p1, by rw [h7, if_pos rfl, List.reverse_reverse, p2, if_pos rfl]⟩⟩

theorem hmt_inv {env : Env K} {X : Tensor K} {rank : RankArg} {seed : Option ℕ} {kind : Option DRMKind}
    {drm : Option (DRM K)} {b : Bool} {Y : TT K}
    (hg : ∀ D, drm = some D → D.WF ∧ D.toDRMBase.Full ∧ D.transpose = true)
    (hX : X.Valid) (hne : X.NonEmpty) (hd : 2 ≤ X.shape.length)
    (h : hmtSketch env X rank seed kind drm b = .ok Y) :
    b = false ∧ ∃ D, hmtDRM env X.shape rank (seed.getD (env.freshSeed % 2 ^ 32)) kind drm = .ok D ∧ Hmted env X Y D := by
  unfold hmtSketch at h
  obtain ⟨D, h0, h⟩ := andThen_ok h
  obtain ⟨s, hs, h⟩ := andThen_ok h
  cases b with
  | true => cases h
  | false =>
    refine ⟨rfl, D, h0, ?_⟩
    obtain ⟨r1, r2, r3, -⟩ := hmtDRM_inv hg hd h0
    unfold generalSketch at hs
    obtain ⟨rc, c2, hs⟩ := andThen_ok hs
    obtain ⟨psi, c4, hs⟩ := andThen_ok hs
    injection hs with hs
    subst hs
    have h : Except.ok (TT.mk psi) = (Except.ok Y : Except PyErr _) := h
    injection h with h
    subst h
    obtain ⟨t0, ht0⟩ := List.exists_mem_of_ne_nil _ (Tensor.nonEmpty_summands hne)
    have hsr : X.shape = D.shape := by
      rw [← (Tensor.valid_summands hX t0 ht0).2]; exact contr_ok_shape c2 t0 ht0
    exact ⟨acceptsT_of r1 r2 hX hsr (contr_ok_supports c2), r3, rc, c2, c4⟩

theorem Hmted.ranks {env : Env K} {X : Tensor K} {Y : TT K} {D : DRM K} (h : Hmted env X Y D) :
    D.rank.reverse.length = X.shape.length - 1 := by
  rw [List.length_reverse, h.acc.shape]; exact h.acc.wf.rankLen

theorem Hmted.run' {env : Env K} {X : Tensor K} {Y : TT K} {D : DRM K} (h : Hmted env X Y D) (hX : X.Valid)
    {R : Mats K} (hS : StreamsWith env X D R) :
    OrthRun env X.shape X.toNumpy.get R D.rank.reverse D.rank.reverse none Y.cores X.shape.length := by
  obtain ⟨rc, c2, c4⟩ := h.run
  have hd : 2 ≤ X.shape.length := by rw [h.acc.shape]; exact h.acc.wf.two
  exact orth_fold (om := none) hX hd hS h.ranks h.ranks c2 rfl _ le_rfl _ c4

/-- **C42.** The result of `hmt_sketch` is a tensor train of the tensor's shape with the ranks of the DRM it used
(the trimmed requested ranks, or those of the supplied DRM), all of whose cores but the last are left-orthogonal.
Formats as in `C33_streaming`. -/
theorem C42_form (env : Env K) (hE : LstsqContract env) (hQ : QRContract env) (X : Tensor K) (rank : RankArg)
    (seed : Option ℕ) (kind : Option DRMKind) (drm : Option (DRM K)) (b : Bool) (Y : TT K)
    (hg : ∀ D, drm = some D → D.WF ∧ D.toDRMBase.Full ∧ D.transpose = true) (hX : X.Valid) (hne : X.NonEmpty)
    (hd : 2 ≤ X.shape.length) (hdist : X.Distinct) (hx : ∀ t ∈ X.summands, t.RightExact)
    (h : hmtSketch env X rank seed kind drm b = .ok Y) :
    Y.Valid ∧ Y.shape = X.shape ∧
      (drm = none → Y.rank = trimRanks X.shape (ranksOf rank X.shape.length)) ∧
      (∀ D, drm = some D → Y.rank = D.rank.reverse ∧ rank = .seq D.rank.reverse) ∧
      ((∀ n ∈ X.shape, 0 < n) → (∀ r ∈ Y.rank, 0 < r) →
        ∀ mu < X.shape.length - 1, (Y.cores.getD mu (ND.zeros [])).LeftOrthogonal) := by
  obtain ⟨-, D, h0, hO⟩ := hmt_inv hg hX hne hd h
  obtain ⟨-, -, -, h4⟩ := hmtDRM_inv hg hd h0
  obtain ⟨f1, f2, f3, f4⟩ := orth_form hE hQ hd (hO.run' hX (streamsWith_exact hX hO.acc hO.dir hdist hx)) hO.ranks
    hO.ranks rfl
  refine ⟨f1, f2, fun hn => ?_, fun D' hD' => ?_, by rw [f3]; exact f4⟩
  · rcases h4 with ⟨h4, -⟩ | ⟨-, -, -, -, h4⟩
    · rw [hn] at h4; cases h4
    · rw [f3, h4]
  · rcases h4 with ⟨h4, h5⟩ | ⟨h4, -⟩
    · rw [hD'] at h4; injection h4 with h4; subst h4; exact ⟨f3, h5⟩
    · rw [hD'] at h4; cases h4

/-- **C42, dense arrays** with any number of modes. -/
theorem C42_form_dense (env : Env K) (hE : LstsqContract env) (hQ : QRContract env) (X : ND K) (rank : RankArg)
    (seed : Option ℕ) (kind : Option DRMKind) (drm : Option (DRM K)) (b : Bool) (Y : TT K)
    (hg : ∀ D, drm = some D → D.WF ∧ D.toDRMBase.Full ∧ D.transpose = true)
    (hd : 2 ≤ X.shape.length) (h : hmtSketch env (.leaf (.dense X)) rank seed kind drm b = .ok Y) :
    Y.Valid ∧ Y.shape = X.shape ∧
      (drm = none → Y.rank = trimRanks X.shape (ranksOf rank X.shape.length)) ∧
      (∀ D, drm = some D → Y.rank = D.rank.reverse ∧ rank = .seq D.rank.reverse) ∧
      ((∀ n ∈ X.shape, 0 < n) → (∀ r ∈ Y.rank, 0 < r) →
        ∀ mu < X.shape.length - 1, (Y.cores.getD mu (ND.zeros [])).LeftOrthogonal) := by
  obtain ⟨-, D, h0, hO⟩ := hmt_inv (X := .leaf (.dense X)) hg trivial trivial hd h
  obtain ⟨-, -, -, h4⟩ := hmtDRM_inv (shape := X.shape) hg hd h0
  obtain ⟨f1, f2, f3, f4⟩ := orth_form hE hQ (sh := X.shape) (f := X.get) hd
    (hO.run' trivial (streamsWith_dense hO.acc hO.dir)) hO.ranks hO.ranks rfl
  refine ⟨f1, f2, fun hn => ?_, fun D' hD' => ?_, by rw [f3]; exact f4⟩
  · rcases h4 with ⟨h4, -⟩ | ⟨-, -, -, -, h4⟩
    · rw [hn] at h4; cases h4
    · rw [f3, h4]
  · rcases h4 with ⟨h4, h5⟩ | ⟨h4, -⟩
    · rw [hD'] at h4; injection h4 with h4; subst h4; exact ⟨f3, h5⟩
    · rw [hD'] at h4; cases h4

/-- Finding: with `return_drm=True`, `hmt_sketch` never returns (its last line reads a name that is not defined). -/
theorem C42_return_drm (env : Env K) (X : Tensor K) (rank : RankArg) (seed : Option ℕ) (kind : Option DRMKind)
    (drm : Option (DRM K)) (Y : TT K) :
    hmtSketch env X rank seed kind drm true ≠ .ok Y ∧
    (∀ Z, hmtSketch env X rank seed kind drm false = .ok Z →
      hmtSketch env X rank seed kind drm true = .error .nameError) := by
  constructor
  · intro h
    unfold hmtSketch at h
    obtain ⟨D, h0, h⟩ := andThen_ok h
    obtain ⟨s, hs, h⟩ := andThen_ok h
    cases h
  · intro Z h
    unfold hmtSketch at h ⊢
    obtain ⟨D, h0, h⟩ := andThen_ok h
    obtain ⟨s, hs, h⟩ := andThen_ok h
    rw [h0]
    simp only [Except.andThen, hs]
    rfl

theorem hmt_general_ok {env : Env K} (hQ : QRShape env) {X : Tensor K} {R : DRM K}
    {Rm : Mats K} (hX : X.Valid) (aR : R.AcceptsT X) (hRm : StreamsWith env X R Rm)
    (hfit : ∀ mu < X.shape.length - 1,
      R.rank.reverse.getD mu 0 ≤ (1 :: R.rank.reverse).getD mu 0 * X.shape.getD mu 0) :
    ∃ C, generalSketch env X none R .hmt = .ok C := by
  have hd : 2 ≤ X.shape.length := by rw [aR.shape]; exact aR.wf.two
  have hr : R.rank.reverse.length = X.shape.length - 1 := by
    rw [List.length_reverse, aR.shape]; exact aR.wf.rankLen
  obtain ⟨w1, w2⟩ := orth_wf (K := K) (cores := []) hd hr (fun k hk => absurd hk (by simp)) (by simp)
  obtain ⟨lc, rc, q1, q2, -⟩ := streaming_parts (hRm _ (acceptsT_of w1 w2 hX rfl (fun t _ => by cases t <;> rfl)) rfl)
  obtain ⟨cs, hcs⟩ := orth_fold_ok (om := none) (fun h => by simp at h) hQ hX hd hRm hr hr q2 rfl hfit X.shape.length le_rfl
  refine ⟨Container.ofCores cs [], ?_⟩
  unfold generalSketch
  simp only [q2, Except.andThen]
  unfold psisOrth
  rw [show R.T.rank = R.rank.reverse from rfl, hcs]

/-- **C42, success with a supplied DRM** that fits the tensor. -/
theorem C42_success_supplied (env : Env K) (hE : LstsqContract env) (hQ : QRContract env) (X : Tensor K) (D : DRM K)
    (seed : Option ℕ) (kind : Option DRMKind) (hX : X.Valid) (hdist : X.Distinct)
    (hx : ∀ t ∈ X.summands, t.RightExact) (hD : D.AcceptsT X) (ht : D.transpose = true)
    (hfit : ∀ mu < X.shape.length - 1,
      D.rank.reverse.getD mu 0 ≤ (1 :: D.rank.reverse).getD mu 0 * X.shape.getD mu 0) :
    ∃ Y, hmtSketch env X (.seq D.rank.reverse) seed kind (some D) = .ok Y := by
  obtain ⟨C, hC⟩ := hmt_general_ok hQ.qrShape hX hD (streamsWith_exact hX hD ht hdist hx) hfit
  unfold hmtSketch
  simp only [Except.andThen, hmtDRM, if_true, hC]
  exact ⟨_, rfl⟩

theorem hmt_fresh {env : Env K} (hQ : QRShape env) {X : Tensor K} (rank : RankArg)
    (seed : Option ℕ) (kind : Option DRMKind) (hX : X.Valid) (hd : 2 ≤ X.shape.length)
    (hl : (ranksOf rank X.shape.length).length = X.shape.length - 1)
    (p1 : ∀ n ∈ X.shape, 0 < n) (p2 : ∀ r ∈ ranksOf rank X.shape.length, 0 < r)
    (hseed : seed.getD 0 < 2 ^ 32)
    (hsup : ∀ t ∈ X.summands, ∀ D : DRMData K, D.kind = kind.getD .tensorTrain → D.supports t = true)
    (hS : ∀ r : DRM K, r.AcceptsT X → r.transpose = true → ∃ R, StreamsWith env X r R) :
    ∃ Y, hmtSketch env X rank seed kind = .ok Y := by
  unfold hmtSketch
  have hfs : seed.getD (env.freshSeed % 2 ^ 32) < 2 ^ 32 := by
    cases seed with
    | none => exact Nat.mod_lt _ (by norm_num)
    | some s => exact hseed
  generalize seed.getD (env.freshSeed % 2 ^ 32) = sd at hfs
  simp only [hmtDRM, process_ok true (by omega) hl, if_true]
  have hl' : (ranksOf rank X.shape.length).length + 1 = X.shape.length := by omega
  have ht := trimRanks_length X.shape _ hl'
  obtain ⟨R, k1, k2, k3, k4, k5, k6, -, k8⟩ := C29_new env (kind.getD .tensorTrain)
    (.seq (trimRanks X.shape (ranksOf rank X.shape.length))) X.shape true (some sd) hd
    (by show (trimRanks _ _).length = _; omega) (fun _ => hfs)
  have aR := acceptsT_of k2 k3 hX k4.symm fun t ht => hsup t ht _ k6
  obtain ⟨Rm, hRm⟩ := hS R aR k5
  have hLr : R.rank.reverse = trimRanks X.shape (ranksOf rank X.shape.length) := by
    rw [k8, if_pos rfl, List.reverse_reverse]; rfl
  obtain ⟨C, e⟩ := hmt_general_ok hQ hX aR hRm fun mu hmu => by
    rw [hLr]; exact trim_fit hl' p1 p2 mu hmu
  rw [k1]
  simp only [Except.andThen, e]
  exact ⟨_, rfl⟩

/-- **C42, success.** With a freshly made DRM of a class that supports the tensor's formats, positive mode sizes and
ranks, `hmt_sketch` succeeds. -/
theorem C42_success (env : Env K) (hE : LstsqContract env) (hQ : QRContract env) (X : Tensor K) (rank : RankArg)
    (seed : Option ℕ) (kind : Option DRMKind) (hX : X.Valid) (hd : 2 ≤ X.shape.length)
    (hdist : X.Distinct) (hx : ∀ t ∈ X.summands, t.RightExact)
    (hl : (ranksOf rank X.shape.length).length = X.shape.length - 1)
    (p1 : ∀ n ∈ X.shape, 0 < n) (p2 : ∀ r ∈ ranksOf rank X.shape.length, 0 < r)
    (hseed : seed.getD 0 < 2 ^ 32)
    (hsup : ∀ t ∈ X.summands, ∀ D : DRMData K, D.kind = kind.getD .tensorTrain → D.supports t = true) :
    ∃ Y, hmtSketch env X rank seed kind = .ok Y :=
  hmt_fresh hQ.qrShape rank seed kind hX hd hl p1 p2 hseed hsup
    fun _ hr ht => ⟨_, streamsWith_exact hX hr ht hdist hx⟩

/-- **C42, success, dense arrays** with any number of modes. -/
theorem C42_success_dense (env : Env K) (hE : LstsqContract env) (hQ : QRContract env) (X : ND K) (rank : RankArg)
    (seed : Option ℕ) (kind : Option DRMKind) (hd : 2 ≤ X.shape.length)
    (hl : (ranksOf rank X.shape.length).length = X.shape.length - 1)
    (p1 : ∀ n ∈ X.shape, 0 < n) (p2 : ∀ r ∈ ranksOf rank X.shape.length, 0 < r)
    (hseed : seed.getD 0 < 2 ^ 32)
    (hsup : ∀ D : DRMData K, D.kind = kind.getD .tensorTrain → D.supports (.dense X) = true) :
    ∃ Y, hmtSketch env (.leaf (.dense X)) rank seed kind = .ok Y :=
  hmt_fresh hQ.qrShape (X := .leaf (.dense X)) rank seed kind trivial hd hl p1 p2 hseed (fun t ht D hD => by
      have : t = .dense X := by simpa [Tensor.summands] using ht
      subst this; exact hsup D hD)
    fun _ hr ht => ⟨_, streamsWith_dense hr ht⟩

end

section
variable {K : Type*} [Field K]

/-- **C42.** If for every `mu` multiplying the unfolding with the matrix of the right DRM does not lower its rank, then
`hmt_sketch` returns a tensor train denoting exactly the tensor. -/
theorem C42_recovery (env : Env K) (hE : LstsqContract env) (hQ : QRContract env) (X : Tensor K) (rank : RankArg)
    (seed : Option ℕ) (kind : Option DRMKind) (drm : Option (DRM K)) (b : Bool) (Y : TT K) (D : DRM K)
    (hg : ∀ D, drm = some D → D.WF ∧ D.toDRMBase.Full ∧ D.transpose = true) (hX : X.Valid) (hne : X.NonEmpty)
    (hd : 2 ≤ X.shape.length) (hdist : X.Distinct) (hx : ∀ t ∈ X.summands, t.RightExact)
    (p1 : ∀ n ∈ X.shape, 0 < n) (p2 : ∀ r ∈ D.rank, 0 < r)
    (hD : hmtDRM env X.shape rank (seed.getD (env.freshSeed % 2 ^ 32)) kind drm = .ok D)
    (h : hmtSketch env X rank seed kind drm b = .ok Y)
    (hrank : ∀ mu < X.shape.length - 1,
      (X.toNumpy.unfolding (mu + 1) * Matrix.of fun (j : Fin (X.toNumpy.shape.drop (mu + 1)).prod)
        (b : Fin (D.rank.reverse.getD mu 0)) =>
        D.rightMats env (mu + 1) (unravel (X.toNumpy.shape.drop (mu + 1)) j) b).rank
      = (X.toNumpy.unfolding (mu + 1)).rank) : Y.toNumpy = X.toNumpy := by
  obtain ⟨-, D', h0, hO⟩ := hmt_inv hg hX hne hd h
  rw [hD] at h0
  injection h0 with h0
  subst h0
  have hsh := Tensor.toNumpy_shape hX
  have hr := hO.run' hX (streamsWith_exact hX hO.acc hO.dir hdist hx)
  have hs := hO.acc.shape
  have n1 := hO.ranks
  rw [← hsh] at hr n1 hd p1 hrank hs
  obtain ⟨f1, f2, -⟩ := orth_form hE hQ hd hr n1 n1 rfl
  exact tt_of_entries f1 f2 (hmt_recover hE hQ hr (by omega) n1 (fun b => by rw [rightMats_last env (by rw [hs])])
    (positive_fit p1 (fun _ hr => p2 _ (by simpa using hr)) n1)
    fun mu hmu => colSpan_of_rank _ _ _ _ (hrank mu hmu))

/-- **C42, dense arrays** with any number of modes. -/
theorem C42_recovery_dense (env : Env K) (hE : LstsqContract env) (hQ : QRContract env) (X : ND K) (rank : RankArg)
    (seed : Option ℕ) (kind : Option DRMKind) (drm : Option (DRM K)) (b : Bool) (Y : TT K) (D : DRM K)
    (hg : ∀ D, drm = some D → D.WF ∧ D.toDRMBase.Full ∧ D.transpose = true)
    (hd : 2 ≤ X.shape.length) (p1 : ∀ n ∈ X.shape, 0 < n) (p2 : ∀ r ∈ D.rank, 0 < r)
    (hD : hmtDRM env X.shape rank (seed.getD (env.freshSeed % 2 ^ 32)) kind drm = .ok D)
    (h : hmtSketch env (.leaf (.dense X)) rank seed kind drm b = .ok Y)
    (hrank : ∀ mu < X.shape.length - 1,
      (X.unfolding (mu + 1) * Matrix.of fun (j : Fin (X.shape.drop (mu + 1)).prod)
        (b : Fin (D.rank.reverse.getD mu 0)) =>
        D.rightMatsDense env (mu + 1) (unravel (X.shape.drop (mu + 1)) j) b).rank
      = (X.unfolding (mu + 1)).rank) : Y.toNumpy = X := by
  obtain ⟨-, D', h0, hO⟩ := hmt_inv (X := .leaf (.dense X)) hg trivial trivial hd h
  have h0 : hmtDRM env X.shape rank (seed.getD (env.freshSeed % 2 ^ 32)) kind drm = .ok D' := h0
  rw [hD] at h0
  injection h0 with h0
  subst h0
  have hr := hO.run' trivial (streamsWith_dense hO.acc hO.dir)
  have hs : X.shape = D.shape := hO.acc.shape
  have n1 : D.rank.reverse.length = X.shape.length - 1 := hO.ranks
  have hr : OrthRun env X.shape X.get (D.rightMatsDense env) D.rank.reverse D.rank.reverse none Y.cores
    X.shape.length := hr
  obtain ⟨f1, f2, -⟩ := orth_form hE hQ hd hr n1 n1 rfl
  exact tt_of_entries f1 f2 (hmt_recover hE hQ hr (by omega) n1
    (fun b => by rw [rightMatsDense_last env (by rw [hs])])
    (positive_fit p1 (fun _ hr => p2 _ (by simpa using hr)) n1)
    fun mu hmu => colSpan_of_rank _ _ _ _ (hrank mu hmu))

end

/-! ## C43, orthogonal part -/

section
variable {K : Type*} [CommRing K]

/-- **C43.** `orthogonal_sketch` raises `ValueError` unless every left rank is below the right rank on its bond. -/
theorem C43_orth_reject (env : Env K) (X : Tensor K) (lrank rrank : RankArg) (kw : SketchKw K)
    (hd : 2 ≤ X.shape.length)
    (hl : (ranksOf lrank X.shape.length).length = X.shape.length - 1)
    (hr : (ranksOf rrank X.shape.length).length = X.shape.length - 1)
    (ho : ¬ ∀ k < X.shape.length - 1,
      (ranksOf lrank X.shape.length).getD k 0 < (ranksOf rrank X.shape.length).getD k 0) :
    orthogonalSketch env X lrank rrank kw = .error .valueError := by
  unfold orthogonalSketch
  rw [ranksLess_eq hd hl hr, decide_eq_false ho]
  rfl

/-- **C43.** An accepted call of `orthogonal_sketch` had left ranks below the right ones, also after trimming, and
uses supplied DRMs unchanged, which have the requested ranks. -/
theorem C43_orth_accept (env : Env K) (X : Tensor K) (lrank rrank : RankArg) (kw : SketchKw K) (Y : TT K) (l r : DRM K)
    (hkw : kw.Good) (hX : X.Valid) (hne : X.NonEmpty) (hd : 2 ≤ X.shape.length)
    (h : orthogonalSketch env X lrank rrank kw = .ok (Y, l, r)) :
    (∀ k < X.shape.length - 1,
      (ranksOf lrank X.shape.length).getD k 0 < (ranksOf rrank X.shape.length).getD k 0) ∧
    (∀ k < X.shape.length - 1, l.rank.getD k 0 < r.rank.reverse.getD k 0) ∧
    (∀ D, kw.left = some D → l = D ∧ lrank = .seq D.rank) ∧
    (∀ D, kw.right = some D → r = D ∧ rrank = .seq D.rank.reverse) := by
  obtain ⟨hO, h1, -, -, h2, h3, -⟩ := orth_inv hkw hX hne hd h
  exact ⟨h1, hO.ordered, h2, h3⟩

/-- **C43.** `orthogonal_sketch` and `hmt_sketch` reject a supplied DRM whose ranks are not the requested ones. -/
theorem C43_orth_mismatch (env : Env K) (X : Tensor K) (lrank rrank rank : RankArg) (kw : SketchKw K) (D : DRM K)
    (o : TT K × DRM K × DRM K) (seed : Option ℕ) (kind : Option DRMKind) (b : Bool) :
    (kw.left = some D → lrank ≠ .seq D.rank → orthogonalSketch env X lrank rrank kw ≠ .ok o) ∧
    (kw.right = some D → rrank ≠ .seq D.rank.reverse → orthogonalSketch env X lrank rrank kw ≠ .ok o) ∧
    (rank ≠ .seq D.rank.reverse → hmtSketch env X rank seed kind (some D) b = .error .valueError) := by
  refine ⟨fun hD hne h => ?_, fun hD hne h => ?_, fun hne => ?_⟩
  · unfold orthogonalSketch at h
    obtain ⟨rb, hrb, h⟩ := andThen_ok h
    split at h
    · cases h
    obtain ⟨l, hl, h⟩ := andThen_ok h
    unfold leftDRM at hl
    rw [hD] at hl
    simp only [] at hl
    rw [if_neg (fun h => hne h.symm)] at hl
    cases hl
  · unfold orthogonalSketch at h
    obtain ⟨rb, hrb, h⟩ := andThen_ok h
    split at h
    · cases h
    obtain ⟨l, hl, h⟩ := andThen_ok h
    obtain ⟨r, hr, h⟩ := andThen_ok h
    unfold rightDRM at hr
    rw [hD] at hr
    simp only [] at hr
    rw [if_neg (fun h => hne h.symm)] at hr
    cases hr
  · unfold hmtSketch hmtDRM
    simp only []
    rw [if_neg (fun h => hne h.symm)]
    rfl

end

/-! ### Examples

The tensor of shape `2 × 3 × 2` with the single entry `3`, sketched with tensor train DRMs whose entries are all one. -/

/-- least squares and QR by choice -/
noncomputable def env8 : Env ℝ where
  ndtri m := m
  freshSeed := 5
  seedOffset _ n := n
  normalStream _ _ := 1
  genState s _ i := s + i
  randomNormal _ _ k := k + 1
  invSqrt _ := 1
  lstsq := lstsqChoice
  qr := qrChoice
  strHash d := d

noncomputable def x8 : Sparse ℝ := ⟨[2, 3, 2], [([1, 2, 0], 3)]⟩

def l8 : DRM ℝ :=
  { rank := [1, 1], rankMin := [0, 0], rankMax := [1, 1], trueRank := [1, 1]
    shape := [2, 3, 2], transpose := false, seed := 0
    data := .tt [ones [1, 2, 1], ones [1, 3, 1]] }

def r8 : DRM ℝ :=
  { rank := [2, 2], rankMin := [0, 0], rankMax := [2, 2], trueRank := [2, 2]
    shape := [2, 3, 2], transpose := true, seed := 0
    data := .tt [ones [1, 2, 2], ones [2, 3, 2]] }

theorem two_cases {p : ℕ → Prop} (h0 : p 0) (h1 : p 1) : ∀ k < 2, p k := by
  intro k hk
  obtain rfl | rfl : k = 0 ∨ k = 1 := by omega
  · exact h0
  · exact h1

theorem l8_wf : l8.WF ∧ l8.toDRMBase.Full :=
  ⟨⟨by decide, rfl, rfl, rfl, rfl, two_cases (by decide) (by decide), two_cases (by decide) (by decide),
    ⟨rfl, two_cases rfl rfl⟩⟩, two_cases ⟨rfl, rfl⟩ ⟨rfl, rfl⟩⟩

theorem r8_wf : r8.WF ∧ r8.toDRMBase.Full :=
  ⟨⟨by decide, rfl, rfl, rfl, rfl, two_cases (by decide) (by decide), two_cases (by decide) (by decide),
    ⟨rfl, two_cases rfl rfl⟩⟩, two_cases ⟨rfl, rfl⟩ ⟨rfl, rfl⟩⟩

theorem x8_valid : (Tensor.leaf (.sparse x8)).Valid := by
  intro e he
  simp only [x8, List.mem_cons, List.not_mem_nil, or_false] at he
  subst he; simp [x8]

theorem x8_distinct : (Tensor.leaf (.sparse x8)).Distinct := by
  simp [Tensor.Distinct, Leaf.Distinct, Sparse.Distinct, x8]

theorem x8_exact : ∀ t ∈ (Tensor.leaf (.sparse x8)).summands, t.RightExact := by
  intro t ht
  simp only [Tensor.summands, List.mem_cons, List.not_mem_nil, or_false] at ht
  subst ht; trivial

theorem l8_acc : l8.AcceptsT (.leaf (.sparse x8)) :=
  acceptsT_of l8_wf.1 l8_wf.2 x8_valid rfl fun t ht => by
    simp only [Tensor.summands, List.mem_cons, List.not_mem_nil, or_false] at ht
    subst ht; rfl

theorem r8_acc : r8.AcceptsT (.leaf (.sparse x8)) :=
  acceptsT_of r8_wf.1 r8_wf.2 x8_valid rfl fun t ht => by
    simp only [Tensor.summands, List.mem_cons, List.not_mem_nil, or_false] at ht
    subst ht; rfl

theorem x8_get (i : List ℕ) : (Tensor.leaf (.sparse x8)).toNumpy.get i = if i = [1, 2, 0] then 3 else 0 := by
  show x8.toNumpy.get i = _
  rw [Sparse.toNumpy_get x8_valid x8_distinct]
  simp only [sparseEntry, x8, List.map_cons, List.map_nil, List.sum_cons, List.sum_nil, add_zero]
  by_cases hi : i = [1, 2, 0]
  · simp [hi]
  · rw [if_neg hi, if_neg (fun h => hi h.symm)]

theorem x8_rank (mu : ℕ) : ((Tensor.leaf (.sparse x8)).toNumpy.unfolding mu).rank ≤ 1 := by
  refine unfolding_single (i0 := [1, 2, 0]) (by rw [Tensor.toNumpy_shape x8_valid]; decide) (fun i => ?_) mu
  rw [x8_get, x8_get]; simp

theorem x8_omega : ∀ mu < 2, omegaSpec [2, 3, 2] (Tensor.leaf (.sparse x8)).toNumpy.get
    (l8.leftMats env8) (r8.rightMats env8) mu 0 0 ≠ 0 := by
  have e : (Tensor.leaf (.sparse x8)).toNumpy.get = fun i => if i = [1, 2, 0] then (3 : ℝ) else 0 :=
    funext x8_get
  rw [e]
  refine two_cases ?_ ?_
  · simp [omegaSpec, sumIdx, sum_range_succ, DRM.leftMats, DRM.rightMats, DRM.entry, l8, r8, ttVal, ones, ND.dim,
      ND.ofFn]
  · simp [omegaSpec, sumIdx, sum_range_succ, DRM.leftMats, DRM.rightMats, DRM.entry, l8, r8, ttVal, ones, ND.dim,
      ND.ofFn]

/-- The contracted matrix has at most the rank of the unfolding times the right matrix. -/
theorem omega_rank_le_right {K : Type*} [Field K] (A : ND K) (L R : Mats K) (mu l r : ℕ) :
    (Matrix.of fun (a : Fin l) (b : Fin r) => omegaSpec A.shape A.get L R mu a b).rank
      ≤ (A.unfolding (mu + 1) * Matrix.of fun (j : Fin (A.shape.drop (mu + 1)).prod) (b : Fin r) =>
          R (mu + 1) (unravel (A.shape.drop (mu + 1)) j) b).rank := by
  have e : (Matrix.of fun (a : Fin l) (b : Fin r) => omegaSpec A.shape A.get L R mu a b)
      = (Matrix.of fun (a : Fin l) (i : Fin (A.shape.take (mu + 1)).prod) =>
          L (mu + 1) (unravel (A.shape.take (mu + 1)) i) a) * (A.unfolding (mu + 1)
        * Matrix.of fun (j : Fin (A.shape.drop (mu + 1)).prod) (b : Fin r) =>
          R (mu + 1) (unravel (A.shape.drop (mu + 1)) j) b) := by
    rw [← Matrix.mul_assoc]
    ext a b
    rw [Matrix.mul_apply]
    show omegaSpec _ _ _ _ _ _ _ = _
    rw [omegaSpec_left, sumIdx_fin]
    refine sum_congr rfl fun j _ => ?_
    congr 1
    rw [Matrix.mul_apply, pcL, sumIdx_fin]
    rfl
  rw [e]
  exact Matrix.rank_mul_le_right _ _

theorem x8_omega_rank (mu : ℕ) (hmu : mu < 2) :
    1 ≤ (Matrix.of fun (a : Fin (l8.rank.getD mu 0)) (b : Fin (r8.rank.reverse.getD mu 0)) =>
      omegaSpec [2, 3, 2] (Tensor.leaf (.sparse x8)).toNumpy.get (l8.leftMats env8) (r8.rightMats env8) mu a b).rank := by
  have h := x8_omega mu hmu
  obtain rfl | rfl : mu = 0 ∨ mu = 1 := by omega
  · exact rank_ge_one (m := 1) (n := 2) _ 0 0 h
  · exact rank_ge_one (m := 1) (n := 2) _ 0 0 h

/-- `C41_success_supplied`, `C41_form` and `C41_recovery` apply. -/
example : ∃ Y, orthogonalSketch env8 (.leaf (.sparse x8)) (.seq [1, 1]) (.seq [2, 2])
    { left := some l8, right := some r8 } = .ok (Y, l8, r8) ∧ Y.toNumpy = x8.toNumpy ∧ Y.rank = [1, 1] ∧
    ∀ mu < 2, (Y.cores.getD mu (ND.zeros [])).LeftOrthogonal := by
  have hE : LstsqContract env8 := lstsqChoice_contract rfl
  have hQ : QRContract env8 := qrChoice_contract rfl
  obtain ⟨Y, hY⟩ := C41_success_supplied env8 hE hQ (.leaf (.sparse x8)) l8 r8 none none none x8_valid x8_distinct
    x8_exact l8_acc r8_acc rfl rfl (two_cases (by decide) (by decide)) (two_cases (by decide) (by decide))
  have hkw : ({ left := some l8, right := some r8 } : SketchKw ℝ).Good :=
    ⟨fun D h => by cases h; exact ⟨l8_wf.1, l8_wf.2, rfl⟩, fun D h => by cases h; exact ⟨r8_wf.1, r8_wf.2, rfl⟩⟩
  have p1 : ∀ n ∈ (Tensor.leaf (.sparse x8)).shape, 0 < n := by
    show ∀ n ∈ [2, 3, 2], 0 < n
    decide
  have p2 : ∀ r ∈ l8.rank, 0 < r := by
    show ∀ n ∈ [1, 1], 0 < n
    decide
  obtain ⟨-, -, f3, f4⟩ := C41_form env8 hE hQ (.leaf (.sparse x8)) _ _ _ Y l8 r8 hkw x8_valid trivial (by decide) x8_distinct
    x8_exact hY
  refine ⟨Y, hY, ?_, f3, f4 p1 p2⟩
  refine C41_recovery env8 hE hQ (.leaf (.sparse x8)) _ _ _ Y l8 r8 hkw x8_valid trivial (by decide) x8_distinct
    x8_exact p1 p2 hY fun mu hmu => ?_
  have hsh := Tensor.toNumpy_shape x8_valid
  refine le_antisymm ?_ ((x8_rank _).trans (x8_omega_rank mu hmu))
  have := omega_rank_le_right (Tensor.leaf (.sparse x8)).toNumpy (l8.leftMats env8) (r8.rightMats env8) mu
    (l8.rank.getD mu 0) (r8.rank.reverse.getD mu 0)
  refine le_trans (le_of_eq ?_) (this.trans (Matrix.rank_mul_le_left _ _))
  rw [hsh]

/-- `C42_success_supplied`, `C42_form` and `C42_recovery` apply. -/
example : ∃ Y, hmtSketch env8 (.leaf (.sparse x8)) (.seq [2, 2]) none none (some r8) = .ok Y ∧
    Y.toNumpy = x8.toNumpy ∧ Y.rank = [2, 2] ∧ ∀ mu < 2, (Y.cores.getD mu (ND.zeros [])).LeftOrthogonal := by
  have hE : LstsqContract env8 := lstsqChoice_contract rfl
  have hQ : QRContract env8 := qrChoice_contract rfl
  obtain ⟨Y, hY⟩ := C42_success_supplied env8 hE hQ (.leaf (.sparse x8)) r8 none none x8_valid x8_distinct
    x8_exact r8_acc rfl (two_cases (by decide) (by decide))
  have hg : ∀ D, some r8 = some D → D.WF ∧ D.toDRMBase.Full ∧ D.transpose = true :=
    fun D h => by cases h; exact ⟨r8_wf.1, r8_wf.2, rfl⟩
  have p1 : ∀ n ∈ (Tensor.leaf (.sparse x8)).shape, 0 < n := by
    show ∀ n ∈ [2, 3, 2], 0 < n
    decide
  have p2 : ∀ r ∈ r8.rank, 0 < r := by
    show ∀ n ∈ [2, 2], 0 < n
    decide
  obtain ⟨-, -, -, f3, f4⟩ := C42_form env8 hE hQ (.leaf (.sparse x8)) _ _ _ _ _ Y hg x8_valid trivial (by decide)
    x8_distinct x8_exact hY
  have f3 : Y.rank = [2, 2] := (f3 r8 rfl).1
  refine ⟨Y, hY, ?_, f3, f4 p1 (by rw [f3]; decide)⟩
  refine C42_recovery env8 hE hQ (.leaf (.sparse x8)) _ _ _ _ _ Y r8 hg x8_valid trivial (by decide) x8_distinct
    x8_exact p1 p2 rfl hY fun mu hmu => ?_
  have hsh := Tensor.toNumpy_shape x8_valid
  refine le_antisymm (Matrix.rank_mul_le_left _ _) ((x8_rank _).trans ((x8_omega_rank mu hmu).trans ?_))
  have := omega_rank_le_right (Tensor.leaf (.sparse x8)).toNumpy (l8.leftMats env8) (r8.rightMats env8) mu
    (l8.rank.getD mu 0) (r8.rank.reverse.getD mu 0)
  refine le_trans (le_of_eq ?_) this
  rw [hsh]
  rfl

example : orthogonalSketch env8 (.leaf (.sparse x8)) (.int 2) (.seq [3, 2]) = .error .valueError :=
  C43_orth_reject env8 _ _ _ _ (by decide) (by decide) (by decide) (by decide)

end TTS.Props
