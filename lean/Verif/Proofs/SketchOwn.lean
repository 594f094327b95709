import Verif.Proofs.Contr
import Verif.Props.Tensor
import Verif.Props.Hash

/-! The sketch methods of all DRM classes compute the contractions with the DRM's matrices. -/

namespace TTS

open Finset Hash

variable {K : Type*}

section
variable [CommRing K]

/-! ### hashed DRMs -/

omit [CommRing K] in
theorem Sparse.rowsU64_eq (X : Sparse K) (hX : X.Valid) (k : ℕ) (hk : k ≤ X.shape.length) :
    X.rowsU64 k = Spec.idxArray (X.shape.take k).length (X.entries.map fun e => e.1.take k) := by
  have : (X.shape.take k).length = k := by simp [hk]
  rw [this]
  unfold Sparse.rowsU64 Spec.idxArray Sparse.row
  refine List.map_congr_left fun r hr => ?_
  have hr' : r < k := by simpa using hr
  rw [List.map_map, List.map_map]
  refine List.map_congr_left fun e he => ?_
  have hl := (hX e he).length
  simp only [Function.comp]
  rw [getD_eq (by omega), getD_eq (by simp; omega)]
  simp

theorem take_len {sh : List ℕ} {k : ℕ} (h : k ≤ sh.length) : (sh.take k).length = k := by simp [h]

omit [CommRing K] in
theorem Sparse.take_len (X : Sparse K) (hX : X.Valid) (k : ℕ) :
    ∀ i ∈ X.entries.map (fun e => e.1.take k), i.length = (X.shape.take k).length := by
  intro i hi
  obtain ⟨e, he, rfl⟩ := List.mem_map.1 hi
  simp [(hX e he).length]

theorem seedMod_mod (s : ℕ) : seedMod (s % 2 ^ 63) = seedMod s := by
  unfold seedMod; simp

theorem gauss_contr (ndtri : ℕ → K) (X : Sparse K) (hX : X.Valid) (k a b s : ℕ)
    (hk : k + 1 ≤ X.shape.length) :
    IsContrL (.sparse X) (k + 1) (b - a)
      (fun p c => ((indsToNormal ndtri (Spec.idxArray (k + 1) [p])
        (Spec.shapeArray (X.shape.take (k + 1))) a b s).headD []).getD c 0)
      (ND.ofRowsT (b - a) (indsToNormal ndtri (X.rowsU64 (k + 1)) (X.shapeU64 (k + 1)) a b
        (s % 2 ^ 63))) := by
  have hne : X.shape.take (k + 1) ≠ [] := by
    intro h; have := congrArg List.length h; rw [take_len hk] at this; simp at this
  have hl : (X.shape.take (k + 1)).length = k + 1 := take_len hk
  obtain ⟨f, hf⟩ := Props.C28_normal ndtri (X.shape.take (k + 1)) hne s
  have e1 : indsToNormal ndtri (X.rowsU64 (k + 1)) (X.shapeU64 (k + 1)) a b (s % 2 ^ 63)
      = (X.entries.map fun e => e.1.take (k + 1)).map fun i => (List.range (b - a)).map fun j => f i (a + j) := by
    rw [← hf _ (X.take_len hX _), X.rowsU64_eq hX _ hk]
    unfold indsToNormal
    rw [seedMod_mod]; rfl
  rw [e1]
  refine ⟨by simp [ND.ofRowsT, Sparse.nnz], fun e he c hc => ?_⟩
  have hin : InR [b - a, ((X.entries.map fun e => e.1.take (k + 1)).map fun i =>
      (List.range (b - a)).map fun j => f i (a + j)).length] [c, e] := by
    simp [hc, he]
  refine (ND.ofFn_get hin).trans ?_
  have h2 := hf [X.entries[e].1.take (k + 1)] (by simp [(hX _ (List.getElem_mem he)).length]) a b
  rw [hl] at h2
  simp only [h2]
  rw [List.map_map, show ([c, e].getD 1 0) = e from rfl, show ([c, e].getD 0 0) = c from rfl,
    getD_eq (l := List.map _ X.entries) (by simpa using he)]
  simp

theorem sign_contr (X : Sparse K) (hX : X.Valid) (k t a b nnz s : ℕ) (hk : k + 1 ≤ X.shape.length)
    (hb : b ≤ t) :
    IsContrL (.sparse X) (k + 1) (b - a)
      (fun p c => ((((indsToSparseSign (Spec.idxArray (k + 1) [p])
        (Spec.shapeArray (X.shape.take (k + 1))) t a b nnz s).headD []).getD c 0 : ℤ) : K))
      (ND.ofRowsT (min b t - a) ((indsToSparseSign (X.rowsU64 (k + 1)) (X.shapeU64 (k + 1)) t a b nnz
        (s % 2 ^ 63)).map fun row => row.map fun (z : ℤ) => (z : K))) := by
  have hne : X.shape.take (k + 1) ≠ [] := by
    intro h; have := congrArg List.length h; rw [take_len hk] at this; simp at this
  have hl : (X.shape.take (k + 1)).length = k + 1 := take_len hk
  obtain ⟨f, hf⟩ := Props.C28_sign (X.shape.take (k + 1)) hne s t nnz
  have e1 : indsToSparseSign (X.rowsU64 (k + 1)) (X.shapeU64 (k + 1)) t a b nnz (s % 2 ^ 63)
      = (X.entries.map fun e => e.1.take (k + 1)).map fun i => ((f i).take b).drop a := by
    rw [← hf _ (X.take_len hX _), X.rowsU64_eq hX _ hk]
    unfold indsToSparseSign
    rw [seedMod_mod]; rfl
  rw [e1, Nat.min_eq_left hb]
  refine ⟨by simp [ND.ofRowsT, Sparse.nnz], fun e he c hc => ?_⟩
  have hin : InR [b - a, (((X.entries.map fun e => e.1.take (k + 1)).map fun i =>
      ((f i).take b).drop a).map fun row => row.map fun (z : ℤ) => (z : K)).length] [c, e] := by
    simp [hc, he]
  refine (ND.ofFn_get hin).trans ?_
  have h2 := hf [X.entries[e].1.take (k + 1)] (by simp [(hX _ (List.getElem_mem he)).length]) a b
  rw [hl] at h2
  simp only [h2]
  rw [List.map_map, List.map_map, show ([c, e].getD 1 0) = e from rfl,
    show ([c, e].getD 0 0) = c from rfl, getD_eq (l := List.map _ X.entries) (by simpa using he)]
  simp only [List.getElem_map, Function.comp, List.map_cons, List.map_nil, List.headD_cons]
  generalize (f (X.entries[e].1.take (k + 1)) |>.take b).drop a = row
  by_cases hcl : c < row.length
  · rw [getD_eq (by simpa using hcl), getD_eq hcl]; simp
  · rw [List.getD_eq_default _ _ (by simpa using hcl), List.getD_eq_default _ _ (by simpa using hcl)]
    simp

/-! ### slicing columns -/

theorem sliceCols_length (B : DRMBase) (l : List (ND K)) : (B.sliceCols l).length = l.length := by
  simp [DRMBase.sliceCols]

theorem sliceCols_getD (B : DRMBase) (l : List (ND K)) (k : ℕ) (hk : k < l.length) :
    (B.sliceCols l).getD k (ND.zeros [])
      = (l.getD k (ND.zeros [])).cols (B.rankMin.getD k 0) (B.rankMax.getD k 0) := by
  rw [getD_eq (by simpa [sliceCols_length] using hk), getD_eq hk]
  simp [DRMBase.sliceCols]

/-! ### all classes -/

theorem DRM.WF.ownLen {D : DRM K} (_ : D.WF) : D.ownShape.length = D.shape.length := by
  unfold DRMBase.ownShape; split <;> simp

theorem DRM.WF.rankLen {D : DRM K} (h : D.WF) : D.rank.length = D.shape.length - 1 := by
  rw [h.rank_eq, List.length_zipWith, h.lenMin, h.lenMax]; simp

theorem DRM.WF.rank_getD {D : DRM K} (h : D.WF) {k : ℕ} (hk : k < D.shape.length - 1) :
    D.rank.getD k 0 = D.rankMax.getD k 0 - D.rankMin.getD k 0 := by
  have h1 := h.lenMin
  have h2 := h.lenMax
  rw [h.rank_eq, getD_eq (by simp; omega), getD_eq (by omega), getD_eq (by omega)]
  simp

/-- slicing columns of a contraction with a tensor-train DRM -/
theorem cols_contr {M : ND K} {p t a b : ℕ} (hM : M.shape = [p, t]) (hb : b ≤ t) (x c : ℕ)
    (hc : c < b - a) : (M.cols a b).shape = [p, b - a] ∧ (M.cols a b).get [x, c] = M.get [x, a + c] :=
  ⟨by rw [ND.cols_shape hM, Nat.min_eq_left hb], ND.cols_get hM _ _ _ _ (by omega)⟩

theorem cols_shape' {M : ND K} {p t a b : ℕ} (hM : M.shape = [p, t]) (hb : b ≤ t) :
    (M.cols a b).shape = [p, b - a] := by rw [ND.cols_shape hM, Nat.min_eq_left hb]

theorem map_range_take {sh : List ℕ} {k : ℕ} (hk : k ≤ sh.length) :
    (List.range k).map (fun i => sh.getD i 0) = sh.take k := by
  apply List.ext_getElem
  · simp [hk]
  · intro i h1 h2
    have : i < sh.length := by simp at h2; omega
    simp [List.getElem?_eq_getElem this]

theorem sketchOwn_spec (env : Env K) {D : DRM K} (h : D.WF) {X : Leaf K} (hX : X.Valid)
    (hs : X.shape = D.ownShape) (hsup : D.data.supports X = true)
    (hfull : NeedsFull D X → D.toDRMBase.Full) :
    ∃ l, D.sketchOwn env X = .ok l ∧ l.length = D.shape.length - 1 ∧
      ∀ k < D.shape.length - 1,
        IsContrL X (k + 1) (D.rank.getD k 0) (D.entry env k) (l.getD k (ND.zeros [])) := by
  have hlen : X.shape.length = D.shape.length := by rw [hs, h.ownLen]
  have htwo := h.two
  obtain ⟨⟨rank, rankMin, rankMax, trueRank, shape, transpose, seed⟩, data⟩ := D
  cases data with
  | gauss =>
    cases X with
    | sparse X =>
      refine ⟨_, rfl, by simp [← hlen, Leaf.shape], fun k hk => ?_⟩
      rw [getD_map_range _ _ _ _ (by rw [← hlen] at hk; exact hk), h.rank_getD hk]
      have := gauss_contr env.ndtri X hX k (rankMin.getD k 0) (rankMax.getD k 0) (k + seed)
        (by have : X.shape.length = shape.length := hlen; simp only at hk; omega)
      rw [show X.shape = _ from hs] at this
      exact this
    | _ => simp [DRMData.supports] at hsup
  | sign nnz =>
    cases X with
    | sparse X =>
      refine ⟨_, rfl, by simp [← hlen, Leaf.shape], fun k hk => ?_⟩
      rw [getD_map_range _ _ _ _ (by rw [← hlen] at hk; exact hk), h.rank_getD hk]
      have := sign_contr X hX k (trueRank.getD k 0) (rankMin.getD k 0) (rankMax.getD k 0)
        (nnz.getD k 0) (k + seed) (by have : X.shape.length = shape.length := hlen; simp only at hk; omega) (h.le_true k hk)
      rw [show X.shape = _ from hs] at this
      exact this
    | _ => simp [DRMData.supports] at hsup
  | dense mats =>
    obtain ⟨hml, hms⟩ := h.data_ok
    simp only at hml hms
    cases X with
    | sparse X =>
      refine ⟨_, rfl, by simp [← hlen, Leaf.shape], fun k hk => ?_⟩
      rw [getD_map_range _ _ _ _ (by rw [← hlen] at hk; exact hk)]
      have hM := hms k hk
      obtain ⟨e0, e1⟩ : (mats.getD k (ND.zeros [])).dim 0 = rank.getD k 0 ∧ True := by
        rw [ND.dim, hM]; exact ⟨rfl, trivial⟩
      refine ⟨by simp only [ND.ofFn_shape, e0, Sparse.nnz, List.length_map], fun e he a ha => ?_⟩
      simp only []
      refine (ND.ofFn_get (by rw [e0]; simp [he, -List.getD_eq_getElem?_getD]; exact ha)).trans ?_
      show (mats.getD k (ND.zeros [])).get _ = (mats.getD k (ND.zeros [])).get [a, ravel (DRMBase.ownShape _ |>.take (k + 1)) _]
      congr 2
      rw [show ([a, e].getD 1 0) = e from rfl, getD_eq (by simpa using he), List.getElem_map]
      rw [← hs]; rfl
    | tt X =>
      have hv : X.Valid := hX
      obtain ⟨h1, h2⟩ := Props.C21_lr X hv (by rw [show X.shape.length = _ from hlen]; exact htwo)
      obtain ⟨x, hx, hx0, hx1⟩ := hv.cores
      have hcl : X.cores.length = shape.length := by rw [← show X.shape.length = shape.length from hlen]; simp [TT.shape]
      have hpl : X.partialDenseLR.length = shape.length - 1 := by rw [h1, show X.shape.length = _ from hlen]
      refine ⟨_, rfl, by rw [List.length_zipWith, hml, hpl]; simp, fun k hk => ?_⟩
      simp only at hk
      have hkl : k < X.partialDenseLR.length := by omega
      obtain ⟨h3, h4⟩ := h2 k hkl
      have hM := hms k hk
      rw [getD_eq (l := List.zipWith _ _ _) (by rw [List.length_zipWith]; omega), List.getElem_zipWith]
      rw [← getD_eq (l := mats) (by omega) (ND.zeros [])]
      have hown : (DRMBase.ownShape ⟨rank, rankMin, rankMax, trueRank, shape, transpose, seed⟩)
          = X.shape := hs.symm
      rw [hown] at hM
      have hrk : X.rank.getD k 0 = x (k + 1) := by
        have : k + 1 < X.cores.length := by omega
        unfold TT.rank
        rw [getD_map_lt _ _ k (by simp; omega) (ND.zeros [])]
        have e : X.cores.tail.getD k (ND.zeros []) = X.cores.getD (k + 1) (ND.zeros []) := by
          rw [getD_eq (by simp; omega), getD_eq this]; simp
        rw [e]
        exact (dim_of_shape3 (hx (k + 1) this)).1
      rw [hrk] at h3
      have hmm := ND.matmul_shape' hM h3
      refine ⟨x (k + 1), ?_, ND.matT_shape hmm, fun y a ha => ?_⟩
      · have := hx.chain (k + 1) (by omega)
        rwa [hx0] at this
      · rw [ND.matT_get hmm, ND.matmul_get hM h3, ← sum_ravel]
        refine sumIdx_congr fun p hp => ?_
        rw [h4 p hp, mul_comm]
        congr 1
        show _ = (mats.getD k (ND.zeros [])).get _
        rw [hown]
    | dense X =>
      refine ⟨_, rfl, hml, fun k hk => ?_⟩
      have hM := hms k hk
      refine ⟨by rw [hM]; rw [← hs]; rfl, fun p a hp ha => ?_⟩
      show _ = (mats.getD k (ND.zeros [])).get _
      rw [← hs]; rfl
    | _ => simp [DRMData.supports] at hsup
  | tt cores =>
    obtain ⟨hcl, hcs⟩ := h.data_ok
    simp only at hcl hcs
    set sh := (DRMBase.ownShape ⟨rank, rankMin, rankMax, trueRank, shape, transpose, seed⟩) with hsh
    have hC : Cores cores (fun k => (1 :: trueRank).getD k 0) (fun k => sh.getD k 0) := by
      intro k hk
      rw [hcl] at hk
      rw [hcs k hk]; rfl
    have hne : 0 < cores.length := by rw [hcl]; simp only at htwo; omega
    have hshl : sh.length = shape.length := h.ownLen
    have hmin : ∀ k < shape.length - 1, rankMax.getD k 0 ≤ trueRank.getD k 0 := h.le_true
    have hrg : ∀ k < shape.length - 1, rank.getD k 0 = rankMax.getD k 0 - rankMin.getD k 0 :=
      fun k hk => h.rank_getD hk
    cases X with
    | sparse X =>
      obtain ⟨h1, h2⟩ := ttSketchSparse_spec hC rfl hne X hX
        (by have : X.shape.length = shape.length := hlen; omega)
      refine ⟨_, rfl, by rw [List.length_map, sliceCols_length, h1, hcl], fun k hk => ?_⟩
      simp only at hk ⊢
      have hk' : k < cores.length := by omega
      obtain ⟨h3, h4⟩ := h2 k hk'
      rw [getD_map_lt _ _ k (by rw [sliceCols_length]; omega) (ND.zeros []),
        sliceCols_getD _ _ _ (by omega), hrg k hk]
      have hsl := cols_shape' (a := rankMin.getD k 0) h3 (hmin k hk)
      refine ⟨ND.matT_shape hsl, fun e he a ha => ?_⟩
      rw [ND.matT_get hsl, ND.cols_get h3 _ _ _ _ (by omega), h4 e he]
      rfl
    | tt X =>
      obtain ⟨x, hx, hx0, hx1⟩ := TT.Valid.cores hX
      rw [show X.shape = sh from hs] at hx
      have hxl : X.cores.length = shape.length := by
        rw [← hshl, ← show X.shape = sh from hs]; simp [TT.shape]
      obtain ⟨h1, h2⟩ := ttSketchTT_spec hC rfl hne X hx hx0 (by omega)
      refine ⟨_, rfl, by rw [sliceCols_length, h1, hcl], fun k hk => ?_⟩
      simp only at hk ⊢
      have hk' : k < cores.length := by omega
      obtain ⟨h3, h4⟩ := h2 k hk'
      rw [sliceCols_getD _ _ _ (by omega), hrg k hk]
      have hsl := cols_shape' (a := rankMin.getD k 0) h3 (hmin k hk)
      refine ⟨x (k + 1), ?_, hsl, fun y a ha => ?_⟩
      · have := hx.chain (k + 1) (by omega)
        rwa [hx0] at this
      · rw [ND.cols_get h3 _ _ _ _ (by simp only; omega), h4 y, show X.shape = sh from hs,
          map_range_take (by omega)]
        rfl
    | cp X =>
      have hv : X.Valid := hX
      have hxl : X.cores.length = shape.length := by
        rw [← hshl, ← show X.shape = sh from hs]; simp [CP.shape]
      have hxs : ∀ k < X.cores.length, (X.cores.getD k (ND.zeros [])).shape = [sh.getD k 0, X.rank] := by
        intro k hk
        rw [← show X.shape = sh from hs]
        unfold CP.shape
        rw [getD_map_lt _ _ k hk (ND.zeros []), getD_eq hk]
        obtain ⟨n, hn⟩ := hv.2 _ (List.getElem_mem hk)
        rw [ND.dim, hn]; rfl
      obtain ⟨h1, h2⟩ := ttSketchCP_spec hC rfl hne X hxs (by omega)
      refine ⟨_, rfl, by rw [sliceCols_length, h1, hcl], fun k hk => ?_⟩
      simp only at hk ⊢
      have hk' : k < cores.length := by omega
      obtain ⟨h3, h4⟩ := h2 k hk'
      rw [sliceCols_getD _ _ _ (by omega), hrg k hk]
      have hsl := cols_shape' (a := rankMin.getD k 0) h3 (hmin k hk)
      refine ⟨hsl, fun y a _ ha => ?_⟩
      rw [ND.cols_get h3 _ _ _ _ (by simp only; omega), h4 y, show X.shape = sh from hs,
          map_range_take (by omega)]
      rfl
    | dense X =>
      have hf := hfull trivial
      obtain ⟨h1, h2⟩ := ttSketchDense_spec hC rfl hne
      refine ⟨_, rfl, by rw [List.length_map, h1, hcl], fun k hk => ?_⟩
      simp only at hk ⊢
      have hk' : k < cores.length := by omega
      obtain ⟨h3, h4⟩ := h2 k hk'
      obtain ⟨f1, f2⟩ := hf k hk
      simp only at f1 f2
      have hr : rank.getD k 0 = (1 :: trueRank).getD (k + 1) 0 := by
        rw [hrg k hk, f1, f2]; rfl
      rw [getD_map_lt _ _ k (by omega) (ND.zeros []), hr]
      rw [map_range_take (by omega)] at h3 h4
      refine ⟨by rw [ND.matT_shape h3, show X.shape = sh from hs], fun p a hp ha => ?_⟩
      rw [show X.shape = sh from hs] at hp ⊢
      rw [ND.matT_get h3, h4 p a hp]
      show _ = ttVal _ p 0 (rankMin.getD k 0 + a)
      rw [f1, zero_add]
    | tucker X =>
      have hv : X.Valid := hX
      have hf := hfull trivial
      have hxl : X.factors.length = shape.length := by
        rw [← hshl, ← show X.shape = sh from hs]; simp [Tucker.shape]
      have hxs : ∀ k < X.factors.length, (X.factors.getD k (ND.zeros [])).shape
          = [X.rank.getD k 0, sh.getD k 0] := by
        intro k hk
        rw [← show X.shape = sh from hs]
        unfold Tucker.shape Tucker.rank
        rw [getD_map_lt _ _ k hk (ND.zeros []), getD_map_lt _ _ k hk (ND.zeros []), getD_eq hk]
        obtain ⟨s, n, hn⟩ := hv.1 _ (List.getElem_mem hk)
        rw [ND.dim, ND.dim, hn]; rfl
      obtain ⟨f1, f2⟩ := hf 0 (by simp only at htwo ⊢; omega)
      simp only at f1 f2
      have hr0 : rank.getD 0 0 = (1 :: trueRank).getD 1 0 := by
        rw [hrg 0 (by simp only at htwo; omega), f1, f2]; rfl
      have hok : tuckerReshapeOk cores (rank.getD 0 0) X := by
        unfold tuckerReshapeOk
        have e := dim_of_shape3 (hC 0 hne)
        have e' : cores.headD (ND.zeros []) = cores.getD 0 (ND.zeros []) := by
          cases cores <;> rfl
        simp only [e']
        rw [e.1, e.2.2, hr0]; simp
      obtain ⟨h1, h2⟩ := ttSketchTucker_spec (s := fun k => X.rank.getD k 0) hC rfl hne X hxs (by omega) rfl
      have hrl : X.rank.length = shape.length := by simp [Tucker.rank, hxl]
      rw [← hr0] at h1 h2
      refine ⟨_, if_pos hok, by rw [h1, hcl], fun k hk => ?_⟩
      simp only at hk ⊢
      have hk' : k < cores.length := by omega
      obtain ⟨h3, h4⟩ := h2 k hk'
      obtain ⟨f1, f2⟩ := hf k hk
      simp only at f1 f2
      have hr : rank.getD k 0 = (1 :: trueRank).getD (k + 1) 0 := by
        rw [hrg k hk, f1, f2]; rfl
      rw [map_range_take (by omega)] at h3 h4
      rw [hr]
      refine ⟨h3, fun q a hq ha => ?_⟩
      rw [h4 q a hq, map_range_take (by omega), show X.shape = sh from hs]
      refine sumIdx_congr fun p _ => ?_
      show _ = _ * ttVal _ p 0 (rankMin.getD k 0 + a)
      rw [f1, zero_add]

end
end TTS
