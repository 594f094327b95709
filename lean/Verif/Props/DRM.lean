import Verif.Proofs.Slice
import Verif.Proofs.SketchSum
import Verif.Props.Tensor

/-!
# Properties C29-C32: dimension reduction matrices

`env` stands for the outcomes of all external routines (random numbers, ...); the theorems hold for
every one of them.
-/

namespace TTS.Props

open TTS

variable {K : Type*} [CommRing K]

/-! ## C29 -/

/-- The ranks a rank argument stands for (`r` on every bond, or the given list). -/
def ranksOf (rank : RankArg) (d : ℕ) : List ℕ :=
  match rank with
  | .int r => List.replicate (d - 1) r
  | .seq rs => rs

theorem process_ranksOf {rank : RankArg} {shape : List ℕ}
    (h : (ranksOf rank shape.length).length = shape.length - 1) (hd : 2 ≤ shape.length) :
    processTTRank rank shape false = .ok (ranksOf rank shape.length) := by
  cases rank with
  | int r => exact (C01_int r shape (by rintro rfl; simp at hd)).1
  | seq rs =>
    have h' : rs.length = shape.length - 1 := h
    exact ((C01_seq rs shape).1 (by omega)).1

theorem rankData_full {shape r : List ℕ} (hd : 2 ≤ shape.length) (hr : r.length = shape.length - 1) :
    RankData shape (List.replicate (shape.length - 1) 0) r r :=
  ⟨hd, by simp, hr, hr, fun k hk => by
    rw [List.getD_eq_getElem?_getD]; simp [hk], fun _ _ => le_refl _⟩

theorem replicate_getD_zero (n k : ℕ) : (List.replicate n 0).getD k 0 = 0 := by
  rw [List.getD_eq_getElem?_getD]
  by_cases h : k < n <;> simp [h]

theorem rev?_replicate (t : Bool) (n z : ℕ) : rev? t (List.replicate n z) = List.replicate n z := by
  cases t <;> simp [rev?]

theorem zipWith_sub_zero (n : ℕ) (l : List ℕ) (h : l.length = n) :
    List.zipWith (fun r1 r2 => r2 - r1) (List.replicate n 0) l = l := by
  apply List.ext_getElem (by simp [h])
  intro i h1 h2
  simp

/-- the constructed object -/
theorem new_full (env : Env K) (kind : DRMKind) (rank : RankArg) (shape : List ℕ) (t : Bool)
    (seed : Option ℕ) (hd : 2 ≤ shape.length)
    (hr : (ranksOf rank shape.length).length = shape.length - 1)
    (hs : kind = .denseGaussian → seed.getD 0 < 2 ^ 32) :
    let B := mkBase shape t (seed.getD env.freshSeed % (2 ^ 32 - 1))
      (List.replicate (shape.length - 1) 0) (ranksOf rank shape.length) (ranksOf rank shape.length)
    DRM.new env kind rank shape t seed = .ok ⟨B, buildData env kind B seed none⟩ := by
  have h := process_ranksOf hr hd
  exact new_eq env kind t seed {} h hr hd hs

/-- C29 (constructors): every DRM class can be built for every valid rank (given as a number or as
`d-1` numbers) and both directions; the result is well formed, unsliced, and reports the ranks as
given for left and reversed for right DRMs.  (`DenseGaussianDRM` rejects seeds `≥ 2^32`, see
`C29_seed`.) -/
theorem C29_new (env : Env K) (kind : DRMKind) (rank : RankArg) (shape : List ℕ) (t : Bool)
    (seed : Option ℕ) (hd : 2 ≤ shape.length)
    (hr : (ranksOf rank shape.length).length = shape.length - 1)
    (hs : kind = .denseGaussian → seed.getD 0 < 2 ^ 32) :
    ∃ D : DRM K, DRM.new env kind rank shape t seed = .ok D ∧ D.WF ∧ D.toDRMBase.Full ∧
      D.shape = shape ∧ D.transpose = t ∧ D.data.kind = kind ∧ D.seed < 2 ^ 32 - 1 ∧
      D.rank = if t then (ranksOf rank shape.length).reverse else ranksOf rank shape.length := by
  have h := rankData_full hd hr
  refine ⟨_, new_full env kind rank shape t seed hd hr hs,
    build_wf env kind t _ seed none h (by simp), fun k hk => ⟨?_, rfl⟩, rfl, rfl,
    buildData_kind env kind _ seed none, Nat.mod_lt _ (by norm_num), ?_⟩
  · show (rev? t (List.replicate _ 0)).getD k 0 = 0
    rw [rev?_replicate, replicate_getD_zero]
  · show List.zipWith _ (rev? t (List.replicate _ 0)) (rev? t _) = _
    rw [rev?_replicate, zipWith_sub_zero _ _ (by rw [rev?_length, hr])]
    rfl

/-- Finding: `DenseGaussianDRM` accepts no seed `≥ 2^32` (numpy's limit), the other classes do. -/
theorem C29_seed (env : Env K) (rank : RankArg) (shape : List ℕ) (t : Bool) (s : ℕ)
    (hd : 2 ≤ shape.length) (hr : (ranksOf rank shape.length).length = shape.length - 1)
    (hs : 2 ^ 32 ≤ s) :
    (DRM.new env .denseGaussian rank shape t (some s) : Except PyErr (DRM K)) = .error .valueError := by
  unfold DRM.new
  rw [base_new env t (some s) {} (process_ranksOf hr hd)]
  show (if _ then _ else _) = _
  rw [if_pos]
  refine ⟨?_, hs⟩
  have h1 : (mkBase shape t ((some s).getD env.freshSeed % (2 ^ 32 - 1))
    (Option.getD (none : Option (List ℕ)) (List.replicate (shape.length - 1) 0))
    (Option.getD none (ranksOf rank shape.length))
    (Option.getD none (ranksOf rank shape.length))).trueRank.length = shape.length - 1 := by
      show (rev? t _).length = _
      rw [rev?_length]; exact hr
  rw [ownShape_length]
  show 0 < min _ (shape.length - 1)
  rw [h1]
  omega

theorem slice_eq (env : Env K) {D : DRM K} (h : D.WF) (hs : D.seed < 2 ^ 32) (a b : List ℕ) :
    let B := mkBase D.shape D.transpose (D.seed % (2 ^ 32 - 1)) a b (rev? D.transpose D.trueRank)
    D.slice env a b = .ok ⟨B, buildData env D.data.kind B (some D.seed) none⟩ := by
  have hp : processTTRank (.seq D.rank) D.shape false = .ok D.rank :=
    ((C01_seq D.rank D.shape).1 (by have := h.rankLen; have := h.two; omega)).1
  exact new_eq env D.data.kind D.transpose (some D.seed)
    { rankMin := some a, rankMax := some b, trueRank := some (rev? D.transpose D.trueRank) } hp
    (by show (rev? _ _).length = _; rw [rev?_length, h.lenTrue]) h.two (fun _ => hs)

/-- C29 (`slice`): for cut ranks `a ≤ b ≤` true rank (in the user's, left to right, order),
`slice(a, b)` succeeds for every DRM and reports the ranks `b - a` in the DRM's own direction. -/
theorem C29_slice (env : Env K) {D : DRM K} (h : D.WF) (hs : D.seed < 2 ^ 32 - 1) (a b : List ℕ)
    (ha : a.length = D.shape.length - 1) (hb : b.length = D.shape.length - 1)
    (hab : ∀ k < D.shape.length - 1, a.getD k 0 ≤ b.getD k 0 ∧
      b.getD k 0 ≤ (if D.transpose then D.trueRank.reverse else D.trueRank).getD k 0) :
    ∃ D' : DRM K, D.slice env a b = .ok D' ∧ D'.WF ∧ D'.shape = D.shape ∧
      D'.transpose = D.transpose ∧ D'.data.kind = D.data.kind ∧ D'.seed = D.seed ∧
      D'.trueRank = D.trueRank ∧ D'.rank.length = D.shape.length - 1 ∧
      ∀ k < D.shape.length - 1,
        (if D.transpose then D'.rank.reverse else D'.rank).getD k 0 = b.getD k 0 - a.getD k 0 := by
  have hrd : RankData D.shape a b (rev? D.transpose D.trueRank) :=
    ⟨h.two, ha, hb, by rw [rev?_length, h.lenTrue], fun k hk => (hab k hk).1, fun k hk => (hab k hk).2⟩
  have hw := build_wf env D.data.kind D.transpose (D.seed % (2 ^ 32 - 1)) (some D.seed) none hrd (by simp)
  refine ⟨_, slice_eq env h (by omega) a b, hw, rfl, rfl, buildData_kind _ _ _ _ _,
    Nat.mod_eq_of_lt hs, rev?_rev? _ _, ?_, fun k hk => ?_⟩
  · exact hw.rankLen
  · show (rev? D.transpose (List.zipWith _ (rev? D.transpose a) (rev? D.transpose b))).getD k 0 = _
    have hl : (List.zipWith (fun r1 r2 : ℕ => r2 - r1) (rev? D.transpose a) (rev? D.transpose b)).length
        = D.shape.length - 1 := by simp [ha, hb]
    rw [rev?_getD _ _ _ (by rw [hl]; exact hk), hl,
      zipWith_sub_getD _ _ _ (by rw [rev?_length, ha]; split <;> omega)
        (by rw [rev?_length, hb]; split <;> omega)]
    have g : ∀ l : List ℕ, l.length = D.shape.length - 1 →
        (rev? D.transpose l).getD (if D.transpose = true then D.shape.length - 1 - 1 - k else k) 0 = l.getD k 0 := by
      intro l hl
      rw [← hl]; exact rev?_getD' D.transpose l k (by omega) 0
    rw [g a ha, g b hb]

/-- C29 (`T`): flips the direction, reverses the rank data, keeps everything else; an involution. -/
theorem C29_T (D : DRM K) :
    D.T.transpose = !D.transpose ∧ D.T.rank = D.rank.reverse ∧ D.T.rankMin = D.rankMin.reverse ∧
    D.T.rankMax = D.rankMax.reverse ∧ D.T.trueRank = D.trueRank.reverse ∧ D.T.shape = D.shape ∧
    D.T.seed = D.seed ∧ D.T.T = D := by
  refine ⟨rfl, rfl, rfl, rfl, rfl, rfl, rfl, ?_⟩
  obtain ⟨⟨rank, rankMin, rankMax, trueRank, shape, transpose, seed⟩, data⟩ := D
  simp [DRM.T, DRMBase.T]

/-- an environment for examples -/
def env0 : Env ℤ where
  ndtri m := (m : ℤ) % 7 - 3
  freshSeed := 5
  seedOffset _ n := n
  normalStream s k := ((s + k * k : ℕ) : ℤ) % 5 - 2
  genState s _ i := s + i
  randomNormal s _ k := ((s + 3 * k : ℕ) : ℤ) % 5 - 2
  invSqrt _ := 1
  lstsq _ b := b
  qr A := (A, A)
  strHash d := d

example : ((DRM.new env0 .tensorTrain (.seq [2, 3]) [2, 3, 4] true (some 7) :
    Except PyErr (DRM ℤ)).toOption.map fun D => (D.rank, D.trueRank)) = some ([3, 2], [3, 2]) := by
  decide

example : ((DRM.new env0 .sparseGaussian (.seq [2, 3]) [2, 3, 4] true (some 7) :
    Except PyErr (DRM ℤ)).toOption.bind fun D => (D.slice env0 [1, 0] [2, 2]).toOption.map (·.rank))
      = some [2, 1] := by decide

/-! ## C30 -/

theorem build_accepts (env : Env K) (kind : DRMKind) {shape mn mx tr : List ℕ} (t : Bool) (seed : ℕ)
    (raw : Option ℕ) (h : RankData shape mn mx tr) {X : Leaf K} (hX : X.Valid) (hsh : X.shape = shape)
    (hsup : (buildData env kind (mkBase shape t seed mn mx tr) raw none).supports X = true)
    (hf : NeedsFull (⟨mkBase shape t seed mn mx tr,
      buildData env kind (mkBase shape t seed mn mx tr) raw none⟩ : DRM K) X →
        (mkBase shape t seed mn mx tr).Full) :
    DRM.Accepts (⟨mkBase shape t seed mn mx tr,
      buildData env kind (mkBase shape t seed mn mx tr) raw none⟩ : DRM K) X :=
  ⟨build_wf env kind t seed raw none h (by simp), hX, hsh, hsup, hf⟩

theorem supports_kind (D D' : DRMData K) (h : D.kind = D'.kind) (X : Leaf K) :
    D.supports X = D'.supports X := by
  cases D <;> cases D' <;> simp [DRMData.kind] at h <;> cases X <;> rfl

theorem needsFull_kind {D D' : DRM K} (h : D.data.kind = D'.data.kind) (X : Leaf K) :
    NeedsFull D X ↔ NeedsFull D' X := by
  obtain ⟨B, d⟩ := D
  obtain ⟨B', d'⟩ := D'
  cases d <;> cases d' <;> simp [DRMData.kind] at h <;> cases X <;> rfl

/-- The seed argument is one for which a `DenseGaussianDRM` draws all its numbers from `drm.seed`. -/
def SeedOk (kind : DRMKind) (seed : Option ℕ) : Prop :=
  kind = .denseGaussian → ∃ s < 2 ^ 32 - 1, seed = some s

theorem SeedOk.lt {kind : DRMKind} {seed : Option ℕ} (h : SeedOk kind seed) :
    kind = .denseGaussian → seed.getD 0 < 2 ^ 32 := by
  intro hk
  obtain ⟨s, hs, rfl⟩ := h hk
  simp; omega

/-- With such a seed the constructor is the one with seed `drm.seed`. -/
theorem SeedOk.build {kind : DRMKind} {seed : Option ℕ} (h : SeedOk kind seed) (env : Env K) (B : DRMBase) :
    buildData env kind B seed none
      = buildData env kind B (some (seed.getD env.freshSeed % (2 ^ 32 - 1))) none := by
  cases kind with
  | denseGaussian =>
    obtain ⟨s, hs, rfl⟩ := h rfl
    rw [Option.getD_some, Nat.mod_eq_of_lt hs]
  | _ => rfl

/-- C30: contracting any tensor with `drm.slice(a, b)` gives the columns `a..b` of the contractions
with `drm`, at every position, for left and right DRMs of all four classes.

Domain: a `DenseGaussianDRM` must have been given a seed below `2^32 - 1` (`C30_unseeded` shows what happens
otherwise), a `TensorTrainDRM` must not meet a dense or Tucker tensor (`C30_dense`) and a `SparseSignDRM` must
have the default number of non-zeros (`C30_nnz`). -/
theorem C30_slice (env : Env K) (kind : DRMKind) (rank : RankArg) (shape : List ℕ) (t : Bool)
    (seed : Option ℕ) (hd : 2 ≤ shape.length)
    (hr : (ranksOf rank shape.length).length = shape.length - 1)
    (hs : SeedOk kind seed) (D : DRM K) (hD : DRM.new env kind rank shape t seed = .ok D)
    (a b : List ℕ) (ha : a.length = shape.length - 1) (hb : b.length = shape.length - 1)
    (hab : ∀ k < shape.length - 1, a.getD k 0 ≤ b.getD k 0 ∧
      b.getD k 0 ≤ (ranksOf rank shape.length).getD k 0)
    (X : Leaf K) (hX : X.Valid) (hsh : X.shape = shape) (hsup : D.data.supports X = true)
    (hnf : ¬ NeedsFull D X) :
    ∃ (D' : DRM K) (L L' : List (ND K)), D.slice env a b = .ok D' ∧ D.sketch env X = .ok L ∧
      D'.sketch env X = .ok L' ∧ L.length = shape.length - 1 ∧ L'.length = shape.length - 1 ∧
      ∀ mu < shape.length - 1, L'.getD mu (ND.zeros [])
        = X.sliceContr (L.getD mu (ND.zeros [])) (a.getD mu 0) (b.getD mu 0) := by
  have e := new_full (K := K) env kind rank shape t seed hd hr hs.lt
  rw [e] at hD
  injection hD with hD
  have h := rankData_full hd hr
  obtain ⟨s, hs', hmod⟩ : ∃ s < 2 ^ 32 - 1, seed.getD env.freshSeed % (2 ^ 32 - 1) = s :=
    ⟨_, Nat.mod_lt _ (by norm_num), rfl⟩
  rw [hs.build env, hmod] at hD
  have hw := build_wf env kind t s (some s) none h (by simp)
  subst hD
  set r := ranksOf rank shape.length
  have hrd : RankData shape a b r := ⟨hd, ha, hb, hr, fun k hk => (hab k hk).1, fun k hk => (hab k hk).2⟩
  have hsl := slice_eq env hw (show s < 2 ^ 32 by omega) a b
  simp only [] at hsl
  rw [buildData_kind] at hsl
  have hmod2 : (mkBase shape t s (List.replicate (shape.length - 1) 0) r r).seed % (2 ^ 32 - 1) = s :=
    Nat.mod_eq_of_lt hs'
  rw [hmod2] at hsl
  have htr : rev? (mkBase shape t s (List.replicate (shape.length - 1) 0) r r).transpose
      (mkBase shape t s (List.replicate (shape.length - 1) 0) r r).trueRank = r := rev?_rev? t r
  rw [htr] at hsl
  have hsup' : (buildData env kind (mkBase shape t s a b r) (some s) none).supports X = true := by
    rw [← hsup]; exact supports_kind _ _ (by rw [buildData_kind, buildData_kind]) X
  have acc := build_accepts env kind t s (some s) h hX hsh hsup (fun h' => absurd h' hnf)
  have acc' := build_accepts env kind t s (some s) hrd hX hsh hsup'
    (fun h' => absurd ((needsFull_kind (by simp only [buildData_kind]) X).1 h') hnf)
  obtain ⟨L, L', h1, h2, h3, h4, h5⟩ := contr_slice env kind t s (some s) none h hrd (Or.inr rfl)
    (fun k hk => ⟨by rw [replicate_getD_zero]; omega, (hab k hk).2⟩) acc acc'
  refine ⟨_, L, L', hsl, h1, h2, h3, h4, fun mu hmu => ?_⟩
  rw [h5 mu hmu, replicate_getD_zero]; rfl

/-- all hypotheses of `C30_slice` hold for a right sparse sign DRM and for a tensor train DRM -/
example (D : DRM ℤ) (hD : DRM.new env0 .sparseSign (.seq [3]) [2, 3] true (some 7) = .ok D) :
    ∃ (D' : DRM ℤ) (L L' : List (ND ℤ)), D.slice env0 [1] [3] = .ok D' ∧
      D.sketch env0 (.sparse sSparse) = .ok L ∧ D'.sketch env0 (.sparse sSparse) = .ok L' ∧
      L'.getD 0 (ND.zeros []) = (L.getD 0 (ND.zeros [])).rows 1 3 := by
  have hk : D.data.kind = .sparseSign := by
    injection hD with hD; subst hD; rfl
  have hsup : D.data.supports (.sparse sSparse) = true := by
    rw [supports_kind D.data (.sign []) hk]; rfl
  obtain ⟨D', L, L', h1, h2, h3, -, -, h4⟩ := C30_slice env0 .sparseSign (.seq [3]) [2, 3] true (some 7)
    (by decide) (by decide) (by intro h; cases h) D hD [1] [3] (by decide) (by decide) (by decide)
    (.sparse sSparse) sSparse_valid rfl hsup
    (fun h => (needsFull_kind (D' := ⟨D.toDRMBase, .sign []⟩) hk (.sparse sSparse)).1 h)
  exact ⟨D', L, L', h1, h2, h3, h4 0 (by decide)⟩

/-- C30 (slices of slices): cut ranks are absolute, so slicing a slice is slicing the original. -/
theorem C30_reslice (env : Env K) {D D1 : DRM K} (h : D.WF) (hs : D.seed < 2 ^ 32 - 1)
    (a b : List ℕ) (ha : a.length = D.shape.length - 1) (hb : b.length = D.shape.length - 1)
    (hab : ∀ k < D.shape.length - 1, a.getD k 0 ≤ b.getD k 0 ∧
      b.getD k 0 ≤ (if D.transpose then D.trueRank.reverse else D.trueRank).getD k 0)
    (h1 : D.slice env a b = .ok D1) (a' b' : List ℕ) :
    D1.slice env a' b' = D.slice env a' b' := by
  obtain ⟨D1', e, hw, s1, s2, s3, s4, s5, -⟩ := C29_slice env h hs a b ha hb hab
  rw [h1] at e
  injection e with e
  subst e
  rw [slice_eq env h (by omega) a' b', slice_eq env hw (by omega) a' b', s1, s2, s3, s4, s5]


/-- Finding: a sliced `TensorTrainDRM` contracts dense and Tucker tensors as if it were not sliced (for Tucker
tensors: unless the reshape of the first contraction fails). -/
theorem C30_dense (env : Env K) (rank : RankArg) (shape : List ℕ) (t : Bool) (s : ℕ)
    (hd : 2 ≤ shape.length) (hr : (ranksOf rank shape.length).length = shape.length - 1)
    (hs : s < 2 ^ 32 - 1) (D : DRM K) (hD : DRM.new env .tensorTrain rank shape t (some s) = .ok D)
    (a b : List ℕ) (X : ND K) :
    ∃ D' : DRM K, D.slice env a b = .ok D' ∧ D'.sketch env (.dense X) = D.sketch env (.dense X) := by
  have e := new_full env .tensorTrain rank shape t (some s) hd hr (by simp)
  rw [e] at hD
  injection hD with hD
  have h := rankData_full hd hr
  have hw := build_wf env .tensorTrain t ((some s).getD env.freshSeed % (2 ^ 32 - 1)) (some s) none h (by simp)
  have hmod : (some s).getD env.freshSeed % (2 ^ 32 - 1) = s := Nat.mod_eq_of_lt hs
  rw [hmod] at hD hw
  subst hD
  have hsl := slice_eq env hw (show s < 2 ^ 32 by omega) a b
  simp only [] at hsl
  rw [buildData_kind] at hsl
  have hmod2 : (mkBase shape t s (List.replicate (shape.length - 1) 0) (ranksOf rank shape.length)
    (ranksOf rank shape.length)).seed % (2 ^ 32 - 1) = s := Nat.mod_eq_of_lt hs
  rw [hmod2] at hsl
  have htr : rev? (mkBase shape t s (List.replicate (shape.length - 1) 0) (ranksOf rank shape.length)
    (ranksOf rank shape.length)).transpose (mkBase shape t s (List.replicate (shape.length - 1) 0)
    (ranksOf rank shape.length) (ranksOf rank shape.length)).trueRank = ranksOf rank shape.length :=
    rev?_rev? t _
  rw [htr] at hsl
  exact ⟨_, hsl, rfl⟩

/-- Finding: `slice` forgets the number of non-zeros of a `SparseSignDRM`: the slice has as many as the
true rank allows. -/
theorem C30_nnz (env : Env K) {D : DRM K} {nnz : List ℕ} (h : D.WF) (hs : D.seed < 2 ^ 32 - 1)
    (hk : D.data = .sign nnz) (a b : List ℕ) :
    ∃ D' : DRM K, D.slice env a b = .ok D' ∧ D'.data = .sign D.trueRank := by
  have := slice_eq env h (by omega) a b
  refine ⟨_, this, ?_⟩
  rw [hk]
  show DRMData.sign (rev? D.transpose (rev? D.transpose D.trueRank)) = _
  rw [rev?_rev?]

/-- ... so the slice with all columns differs from the DRM. -/
example : ((DRM.new env0 .sparseSign (.seq [2]) [2, 2] false (some 7) { nnz := some [1] } :
    Except PyErr (DRM ℤ)).toOption.bind fun D => (D.slice env0 [0] [2]).toOption.bind fun D' =>
      (D.sketch env0 (.sparse ⟨[2, 2], [([1, 0], 1)]⟩)).toOption.bind fun L =>
      (D'.sketch env0 (.sparse ⟨[2, 2], [([1, 0], 1)]⟩)).toOption.map fun L' =>
      ((L.map fun M => [M.get [0, 0], M.get [1, 0]]).map (·.map Int.natAbs |>.sum),
       (L'.map fun M => [M.get [0, 0], M.get [1, 0]]).map (·.map Int.natAbs |>.sum))) = some ([1], [2]) := by
  decide

/-- Finding: a `DenseGaussianDRM` made without a seed uses that missing seed (fresh entropy) for a part of its
random numbers, so slicing it gives unrelated columns. -/
theorem C30_unseeded : ∃ (env : Env ℤ) (D D' : DRM ℤ) (L L' : List (ND ℤ)) (X : ND ℤ),
    DRM.new env .denseGaussian (.seq [1]) [1, 1] false none = .ok D ∧ D.slice env [0] [1] = .ok D' ∧
    D.sketch env (.dense X) = .ok L ∧ D'.sketch env (.dense X) = .ok L' ∧
    (L.getD 0 (ND.zeros [])).get [0, 0] ≠ (L'.getD 0 (ND.zeros [])).get [0, 0] := by
  refine ⟨{ env0 with seedOffset := fun s _ => s.getD 8 }, _, _, _, _, ND.zeros [1, 1], rfl, rfl, rfl, rfl, ?_⟩
  decide

/-! ## C31 -/

/-- C31: `drm.increase_rank(new)` keeps the old columns: for every tensor, the contractions with `drm` are the
first `rank` columns of those with the enlarged DRM (`DenseGaussianDRM` and `SparseGaussianDRM`, explicit seed;
`C31_unseeded`, `C31_other` for the rest). -/
theorem C31_increase (env : Env K) (kind : DRMKind) (hk : kind = .denseGaussian ∨ kind = .sparseGaussian)
    (rank : RankArg) (shape : List ℕ) (t : Bool) (seed : Option ℕ)
    (hd : 2 ≤ shape.length) (hr : (ranksOf rank shape.length).length = shape.length - 1)
    (hs : SeedOk kind seed) (D : DRM K) (hD : DRM.new env kind rank shape t seed = .ok D)
    (new : List ℕ) (hn : new.length = shape.length - 1)
    (hle : ∀ k < shape.length - 1, (ranksOf rank shape.length).getD k 0 ≤ new.getD k 0)
    (X : Leaf K) (hX : X.Valid) (hsh : X.shape = shape) (hsup : D.data.supports X = true) :
    ∃ (D' : DRM K) (L L' : List (ND K)), D.increaseRank env new = .ok D' ∧ D'.WF ∧ D'.shape = shape ∧
      D'.transpose = t ∧ D'.data.kind = kind ∧ D'.seed = D.seed ∧
      D'.rank = (if t then new.reverse else new) ∧
      D.sketch env X = .ok L ∧ D'.sketch env X = .ok L' ∧
      L.length = shape.length - 1 ∧ L'.length = shape.length - 1 ∧
      ∀ mu < shape.length - 1, L.getD mu (ND.zeros [])
        = X.sliceContr (L'.getD mu (ND.zeros [])) 0 ((ranksOf rank shape.length).getD mu 0) := by
  have e := new_full (K := K) env kind rank shape t seed hd hr hs.lt
  rw [e] at hD
  injection hD with hD
  obtain ⟨s, hs', hmod⟩ : ∃ s < 2 ^ 32 - 1, seed.getD env.freshSeed % (2 ^ 32 - 1) = s :=
    ⟨_, Nat.mod_lt _ (by norm_num), rfl⟩
  rw [hs.build env, hmod] at hD
  subst hD
  have e' : DRM.increaseRank env (⟨mkBase shape t s (List.replicate (shape.length - 1) 0)
      (ranksOf rank shape.length) (ranksOf rank shape.length), buildData env kind (mkBase shape t s
      (List.replicate (shape.length - 1) 0) (ranksOf rank shape.length) (ranksOf rank shape.length))
      (some s) none⟩ : DRM K) new = .ok ⟨mkBase shape t s (List.replicate (shape.length - 1) 0) new new,
        buildData env kind (mkBase shape t s (List.replicate (shape.length - 1) 0) new new) (some s) none⟩ := by
    have e2 := new_full (K := K) env kind (.seq new) shape t (some s) hd hn (fun _ => by simp; omega)
    rw [show (some s).getD env.freshSeed % (2 ^ 32 - 1) = s from Nat.mod_eq_of_lt hs'] at e2
    rcases hk with rfl | rfl <;> exact e2
  have h := rankData_full hd hr
  have h' := rankData_full hd hn
  have hnf : ∀ B : DRMBase, ¬ NeedsFull (⟨B, buildData env kind B (some s) none⟩ : DRM K) X := by
    intro B hh
    rcases hk with rfl | rfl <;> exact hh
  have hsup' : (buildData env kind (mkBase shape t s (List.replicate (shape.length - 1) 0) new new)
      (some s) none).supports X = true := by
    rw [← hsup]; exact supports_kind _ _ (by rw [buildData_kind, buildData_kind]) X
  have acc := build_accepts env kind t s (some s) h hX hsh hsup (fun h' => absurd h' (hnf _))
  have acc' := build_accepts env kind t s (some s) h' hX hsh hsup' (fun h' => absurd h' (hnf _))
  obtain ⟨L', L, h1, h2, h3, h4, h5⟩ := contr_slice env kind t s (some s) none h' h (Or.inl hk)
    (fun k hk => ⟨by rw [replicate_getD_zero], hle k hk⟩) acc' acc
  refine ⟨_, L, L', e', acc'.wf, rfl, rfl, buildData_kind _ _ _ _ _, rfl, ?_, h2, h1, h4, h3, fun mu hmu => ?_⟩
  · show List.zipWith _ (rev? t (List.replicate _ 0)) (rev? t _) = _
    rw [rev?_replicate, zipWith_sub_zero _ _ (by rw [rev?_length, hn])]
    rfl
  · rw [h5 mu hmu, replicate_getD_zero]; rfl

/-- The other DRM classes have no `increase_rank`. -/
theorem C31_other (env : Env K) (D : DRM K) (new : List ℕ)
    (hk : D.data.kind = .tensorTrain ∨ D.data.kind = .sparseSign) :
    D.increaseRank env new = .error .attributeError := by
  obtain ⟨B, d⟩ := D
  cases d <;> simp [DRMData.kind] at hk <;> rfl

/-- Finding: without an explicit seed `DenseGaussianDRM.increase_rank` does not keep the old columns. -/
theorem C31_unseeded : ∃ (env : Env ℤ) (D D' : DRM ℤ) (L L' : List (ND ℤ)) (X : ND ℤ),
    DRM.new env .denseGaussian (.seq [1]) [1, 1] false none = .ok D ∧ D.increaseRank env [2] = .ok D' ∧
    D.sketch env (.dense X) = .ok L ∧ D'.sketch env (.dense X) = .ok L' ∧
    (L.getD 0 (ND.zeros [])).get [0, 0] ≠ (L'.getD 0 (ND.zeros [])).get [0, 0] := by
  refine ⟨{ env0 with seedOffset := fun s _ => s.getD 8 }, _, _, _, _, ND.zeros [1, 1], rfl, rfl, rfl, rfl, ?_⟩
  decide

example : ((DRM.new env0 .sparseGaussian (.seq [1]) [2, 2] true (some 7) :
    Except PyErr (DRM ℤ)).toOption.bind fun D => (D.increaseRank env0 [3]).toOption.bind fun D' =>
      (D.sketch env0 (.sparse ⟨[2, 2], [([1, 0], 1)]⟩)).toOption.bind fun L =>
      (D'.sketch env0 (.sparse ⟨[2, 2], [([1, 0], 1)]⟩)).toOption.map fun L' =>
      (L.map (·.shape), L'.map (·.shape))) = some ([[1, 1]], [[3, 1]]) := by
  decide

/-! ## C32 -/

/-- C32: a sketching method refuses a tensor of another shape. -/
theorem C32_mismatch (env : Env K) (D : DRM K) (X : Leaf K) (hsup : D.data.supports X = true)
    (h : X.shape ≠ D.shape) : D.sketch env X = .error .valueError := by
  unfold DRM.sketch
  rw [if_neg (by simp [hsup]), if_pos (Ne.symm h)]

theorem sketch_ok_shape {env : Env K} {D : DRM K} {X : Leaf K} {L : List (ND K)}
    (h : D.sketch env X = .ok L) : X.shape = D.shape := by
  by_contra hne
  unfold DRM.sketch at h
  split at h
  · cases h
  · rw [if_pos (Ne.symm hne)] at h
    cases h

theorem contr_ok_shape {env : Env K} {D : DRM K} {X : Tensor K} {L : List (List (ND K))}
    (h : D.contr env X = .ok L) : ∀ t ∈ X.summands, t.shape = D.shape := by
  unfold DRM.contr at h
  cases X with
  | leaf X =>
    intro t ht
    have : t = X := by simpa [Tensor.summands] using ht
    subst this
    match hs : D.sketch env t with
    | .ok l => exact sketch_ok_shape hs
    | .error e =>
      simp only [hs] at h
      cases h
  | sum X =>
    simp only [] at h
    split at h
    · intro t ht
      obtain ⟨h1, h2⟩ := mapM_ok_iff h
      obtain ⟨k, hk, e⟩ := List.mem_iff_getElem.1 ht
      have hk' : k < X.tensors.length := hk
      have := h2 k hk' (by omega)
      have e' : X.tensors[k] = t := e
      rw [e'] at this
      exact sketch_ok_shape this
    · cases h

theorem andThen_ok {α β : Type*} {x : Except PyErr α} {f : α → Except PyErr β} {b : β}
    (h : x.andThen f = .ok b) : ∃ a, x = .ok a ∧ f a = .ok b := by
  match x with
  | .error e => exact absurd h (by intro h; cases h)
  | .ok a => exact ⟨a, rfl, h⟩

/-- C32 (no sketch is returned): whenever `general_sketch` returns, every tensor in it has the shape of the
DRMs used: the left one (streaming and orthogonal sketches) and the right one (all methods). -/
theorem C32_general (env : Env K) (X : Tensor K) (l : Option (DRM K)) (r : DRM K) (m : Method)
    (s : Container K) (h : generalSketch env X l r m = .ok s) :
    (∀ t ∈ X.summands, t.shape = r.shape) ∧
      (m ≠ .hmt → ∃ D, l = some D ∧ ∀ t ∈ X.summands, t.shape = D.shape) := by
  cases m with
  | streaming =>
    unfold generalSketch at h
    cases l with
    | none => cases h
    | some l =>
      obtain ⟨lc, h1, h⟩ := andThen_ok h
      obtain ⟨rc, h2, h⟩ := andThen_ok h
      exact ⟨contr_ok_shape h2, fun _ => ⟨l, rfl, contr_ok_shape h1⟩⟩
  | orthogonal =>
    unfold generalSketch at h
    cases l with
    | none => cases h
    | some l =>
      obtain ⟨lc, h1, h⟩ := andThen_ok h
      obtain ⟨rc, h2, h⟩ := andThen_ok h
      exact ⟨contr_ok_shape h2, fun _ => ⟨l, rfl, contr_ok_shape h1⟩⟩
  | hmt =>
    unfold generalSketch at h
    obtain ⟨rc, h2, h⟩ := andThen_ok h
    exact ⟨contr_ok_shape h2, fun h => absurd rfl h⟩

example : ((DRM.new env0 .tensorTrain (.seq [2]) [2, 3] true (some 7) : Except PyErr (DRM ℤ)).toOption.map
    fun D => decide (D.sketch env0 (.dense (ND.zeros [3, 2])) |>.toOption.isNone)) = some true := by decide

end TTS.Props
