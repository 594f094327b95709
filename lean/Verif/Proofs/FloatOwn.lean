import Verif.Proofs.FloatContr

/-! Rounding errors of the contractions of all DRM classes. -/

namespace TTS
open Finset ND

theorem DRM.abs_wf {D : DRM ℝ} (h : D.WF) : D.abs.WF := by
  obtain ⟨B, data⟩ := D
  refine ⟨h.two, h.lenMin, h.lenMax, h.lenTrue, h.rank_eq, h.le_max, h.le_true, ?_⟩
  have hd := h.data_ok
  cases data with
  | gauss => exact hd
  | sign nnz => exact hd
  | dense mats =>
    obtain ⟨h1, h2⟩ := hd
    refine ⟨(List.length_map _).trans h1, fun k hk => ?_⟩
    have h1' : mats.length = B.shape.length - 1 := h1
    have hk' : k < B.shape.length - 1 := hk
    show ((mats.map ND.abs).getD k (ND.zeros [])).shape = _
    rw [abs_getD (by omega), ND.abs_shape]
    exact h2 k hk
  | tt cores =>
    obtain ⟨h1, h2⟩ := hd
    refine ⟨(List.length_map _).trans h1, fun k hk => ?_⟩
    have h1' : cores.length = B.shape.length - 1 := h1
    have hk' : k < B.shape.length - 1 := hk
    show ((cores.map ND.abs).getD k (ND.zeros [])).shape = _
    rw [abs_getD (by omega), ND.abs_shape]
    exact h2 k hk

theorem DRM.abs_supports (D : DRM ℝ) (X : Leaf ℝ) : D.abs.data.supports X.abs = D.data.supports X := by
  obtain ⟨B, data⟩ := D
  cases data <;> cases X <;> rfl

theorem DRM.abs_needsFull (D : DRM ℝ) (X : Leaf ℝ) : NeedsFull D.abs X.abs ↔ NeedsFull D X := by
  obtain ⟨B, data⟩ := D
  cases data <;> cases X <;> rfl

theorem Leaf.abs_T (X : Leaf ℝ) : X.T.abs = X.abs.T := by
  have ht : ∀ (A : ND ℝ) (p : List ℕ), (A.transpose p).abs = A.abs.transpose p := by
    intro A p
    apply ND.ext'
    · rfl
    · intro i hi
      rw [ND.abs_get]
      unfold ND.transpose
      rw [ND.ofFn_get (by exact hi), ND.ofFn_get (by exact hi), ND.abs_get]; rfl
  have hm : ∀ (A : ND ℝ), A.matT.abs = A.abs.matT := by
    intro A
    apply ND.ext'
    · rfl
    · intro i hi
      rw [ND.abs_get]
      unfold ND.matT
      rw [ND.ofFn_get (by exact hi), ND.ofFn_get (by exact hi), ND.abs_get]
  cases X with
  | dense X => exact congrArg Leaf.dense (ht _ _)
  | sparse X =>
    show Leaf.sparse _ = Leaf.sparse _
    simp [Sparse.abs, Sparse.T, List.map_map, Function.comp_def]
  | tt X =>
    show Leaf.tt _ = Leaf.tt _
    simp [TT.abs, TT.T, List.map_map, Function.comp_def, ht]
  | cp X =>
    show Leaf.cp _ = Leaf.cp _
    simp [CP.abs, CP.T]
  | tucker X =>
    show Leaf.tucker _ = Leaf.tucker _
    simp only [Tucker.abs, Tucker.T, ht, List.map_reverse]
    simp [Tucker.shape]

/-- `DRM.absSketch` in the DRM's own direction. -/
def DRM.absOwn (env : Env ℝ) (D : DRM ℝ) (X : Leaf ℝ) : Except PyErr (List (ND ℝ)) :=
  match D.data with
  | .gauss => (D.sketchOwn env X).map fun l => l.map ND.abs
  | .sign _ => (D.sketchOwn env X).map fun l => l.map ND.abs
  | _ => D.abs.sketchOwn env X.abs

theorem pick_abs (M : ND ℝ) (inds : List ℕ) :
    (ofFn [M.dim 0, inds.length] fun ij => M.get [ij.getD 0 0, inds.getD (ij.getD 1 0) 0]).abs
      = ofFn [M.abs.dim 0, inds.length] fun ij => M.abs.get [ij.getD 0 0, inds.getD (ij.getD 1 0) 0] := by
  apply ND.ext'
  · rfl
  · intro i hi
    rw [ND.abs_get, ND.ofFn_get (by exact hi), ND.ofFn_get (by exact hi), ND.abs_get]

/-- the merged step of `partial_dense` -/
def mergeStep (_ : ℕ) (P C : ND ℝ) : ND ℝ :=
  (ND.es_ij_jkl_ikl P C).reshape [(ND.es_ij_jkl_ikl P C).dim 0 * (ND.es_ij_jkl_ikl P C).dim 1,
    (ND.es_ij_jkl_ikl P C).dim 2]

theorem partial_scan : ∀ (Cs : List (ND ℝ)) (P : ND ℝ) (acc : List (ND ℝ)) (k : ℕ),
    (Cs.foldl (fun (st : ND ℝ × List (ND ℝ)) core =>
      let N := ND.es_ij_jkl_ikl st.1 core
      let N := N.reshape [N.dim 0 * N.dim 1, N.dim 2]
      (N, st.2 ++ [N])) (P, acc ++ [P])).2 = acc ++ ttScan mergeStep k P Cs
  | [], P, acc, k => rfl
  | C :: Cs, P, acc, k => by
    rw [List.foldl_cons]
    have := partial_scan Cs (mergeStep k P C) (acc ++ [P]) (k + 1)
    refine this.trans ?_
    rw [List.append_assoc acc]; rfl

theorem TT.partialDenseLR_eq (C : ND ℝ) (Cs : List (ND ℝ)) :
    TT.partialDenseLR ⟨C :: Cs⟩
      = ttScan mergeStep 1 (C.reshape [C.dim 0 * C.dim 1, C.dim 2]) Cs.dropLast := by
  exact partial_scan Cs.dropLast (C.reshape [C.dim 0 * C.dim 1, C.dim 2]) [] 1

theorem TT.rank_getD {X : TT ℝ} {x n : ℕ → ℕ} (hx : Cores X.cores x n) {k : ℕ}
    (hk : k + 1 < X.cores.length) : X.rank.getD k 0 = x (k + 1) := by
  unfold TT.rank
  rw [getD_map_lt _ _ k (by simp; omega) (ND.zeros [])]
  have e : X.cores.tail.getD k (ND.zeros []) = X.cores.getD (k + 1) (ND.zeros []) := by
    rw [getD_eq (by simp; omega), getD_eq hk]; simp
  rw [e]
  exact (dim_of_shape3 (hx (k + 1) hk)).1

theorem TT.rank_cons_getD {X : TT ℝ} {x n : ℕ → ℕ} (hx : Cores X.cores x n) (h0 : x 0 = 1) {k : ℕ}
    (hk : k < X.cores.length) : (1 :: X.rank).getD k 0 = x k := by
  cases k with
  | zero => exact h0.symm
  | succ k => exact TT.rank_getD hx hk

theorem TT.rank_length (X : TT ℝ) : X.rank.length = X.cores.length - 1 := by
  simp [TT.rank]

/-- `partial_dense` in floating point arithmetic. -/
theorem TT.partialDense_near {u : ℝ} (hu : 0 ≤ u) {X : TT ℝ} (hX : X.Valid) {pcs : List (ND ℝ)}
    (hd : 2 ≤ X.cores.length) (hf : X.FlPartialDenseLR u pcs) :
    pcs.length = X.cores.length - 1 ∧ ∀ k < X.cores.length - 1,
      NN u (X.rank.take k).sum (pcs.getD k (ND.zeros [])) (X.partialDenseLR.getD k (ND.zeros []))
        (X.abs.partialDenseLR.getD k (ND.zeros [])) := by
  obtain ⟨x, hx, hx0, _⟩ := hX.cores
  have hr : ∀ k, k + 1 < X.cores.length → X.rank.getD k 0 = x (k + 1) := fun k hk => TT.rank_getD hx hk
  have hrl := X.rank_length
  generalize hsh : (fun k => X.shape.getD k 0) = n at hx
  generalize X.rank = rk at hr hrl ⊢
  obtain ⟨cores⟩ := X
  clear hX hsh
  match cores with
  | C :: Cs =>
    have hC0 : C.shape = [1, n 0, x 1] := by have := hx 0 (by simp); rw [hx0] at this; exact this
    rw [TT.partialDenseLR_eq, show TT.abs ⟨C :: Cs⟩ = ⟨C.abs :: Cs.map ND.abs⟩ from rfl,
      TT.partialDenseLR_eq]
    simp only [List.length_cons] at hd hr hrl ⊢
    have hlen : Cs.dropLast.length = Cs.length - 1 := by simp
    have hg : ∀ k < Cs.length - 1, Cs.dropLast.getD k (ND.zeros []) = Cs.getD k (ND.zeros []) := by
      intro k hk
      rw [getD_eq (by omega), getD_eq (by omega), List.getElem_dropLast]
    have := flScan_near (u := u) (step := mergeStep) (stepM := mergeStep)
      (fun k => [((List.range (k + 1)).map n).prod, x (k + 1)]) (fun k => (rk.take k).sum) Cs.dropLast 0
      (C.reshape [C.dim 0 * C.dim 1, C.dim 2]) (C.reshape [C.dim 0 * C.dim 1, C.dim 2])
      (C.abs.reshape [C.abs.dim 0 * C.abs.dim 1, C.abs.dim 2]) pcs
      (by rw [ND.reshape_shape, (dim_of_shape3 hC0).1, (dim_of_shape3 hC0).2.1, (dim_of_shape3 hC0).2.2]; simp)
      (by simpa using (NN.rfl' (u := u) C).merge)
      (by
        rintro k Q' Q MQ Q'' hk hsQ hQ ⟨N, hN, rfl⟩
        rw [hlen] at hk
        rw [hg k hk] at hN ⊢
        simp only [Nat.zero_add] at *
        have hC : (Cs.getD k (ND.zeros [])).shape = [x (k + 1), n (k + 1), x (k + 1 + 1)] :=
          hx (k + 1) (by simp; omega)
        have hE := ND.es_ij_jkl_ikl_shape hsQ hC
        obtain ⟨e0, e1, e2⟩ := dim_of_shape3 hE
        have k1 := NN.e2 hu hQ (NN.rfl' _) hN (t := x (k + 1))
          (by simp [einsumTerms, lbSummed, lbDim, lbGet?, hC, hsQ, -List.getD_eq_getElem?_getD])
        refine ⟨k1.merge.mono hu ?_, ?_⟩
        · rw [take_succ_getD (by omega) 0, List.sum_append, hr k (by omega)]; simp
        · unfold mergeStep
          simp only [ND.reshape_shape]
          rw [e0, e1, e2, List.range_succ (n := k + 1), List.map_append, List.prod_append]; simp)
      hf
    rw [hlen] at this
    refine ⟨by rw [this.1]; omega, fun k hk => ?_⟩
    have h2 := this.2 k (by omega)
    simpa [List.map_dropLast] using h2

theorem forall₂_getD {α β : Type*} {R : α → β → Prop} {l : List α} {m : List β} (h : List.Forall₂ R l m)
    {k : ℕ} (hk : k < l.length) (a : α) (b : β) : R (l.getD k a) (m.getD k b) := by
  have hl := h.length_eq
  rw [getD_eq hk, getD_eq (by omega)]
  exact h.get hk (by omega)

theorem sketchOwn_near {u : ℝ} (hu : 0 ≤ u) (env : Env ℝ) {D : DRM ℝ} (h : D.WF) {X : Leaf ℝ}
    (hX : X.Valid) (hs : X.shape = D.ownShape) (hsup : D.data.supports X = true)
    (hfull : NeedsFull D X → D.toDRMBase.Full) {out : List (ND ℝ)} (hf : D.FlSketchOwn u env X out) :
    ∃ l m, D.sketchOwn env X = .ok l ∧ D.absOwn env X = .ok m ∧
      l.length = D.shape.length - 1 ∧ m.length = D.shape.length - 1 ∧ out.length = D.shape.length - 1 ∧
      ∀ k < D.shape.length - 1, NN u (D.contrRounds X (k + 1)) (out.getD k (ND.zeros []))
        (l.getD k (ND.zeros [])) (m.getD k (ND.zeros [])) := by
  obtain ⟨l, hl1, hl2, hl3⟩ := sketchOwn_spec env h hX hs hsup hfull
  have habs : D.absOwn env X = D.abs.sketchOwn env X.abs →
      ∃ m, D.absOwn env X = .ok m ∧ m.length = D.shape.length - 1 := by
    intro e
    obtain ⟨m, hm1, hm2, _⟩ := sketchOwn_spec env (DRM.abs_wf h) (Leaf.abs_valid hX)
      (by rw [Leaf.abs_shape, hs]; rfl) (by rw [DRM.abs_supports]; exact hsup)
      (fun h' => hfull ((DRM.abs_needsFull D X).1 h'))
    exact ⟨m, e.trans hm1, hm2⟩
  have hlen : X.shape.length = D.shape.length := by rw [hs, h.ownLen]
  have htwo := h.two
  have exactCase : D.sketchOwn env X = .ok out → D.absOwn env X = .ok (l.map ND.abs) →
      ∃ l m, D.sketchOwn env X = .ok l ∧ D.absOwn env X = .ok m ∧
      l.length = D.shape.length - 1 ∧ m.length = D.shape.length - 1 ∧ out.length = D.shape.length - 1 ∧
      ∀ k < D.shape.length - 1, NN u (D.contrRounds X (k + 1)) (out.getD k (ND.zeros []))
        (l.getD k (ND.zeros [])) (m.getD k (ND.zeros [])) := by
    intro e1 e2
    have : out = l := by rw [e1] at hl1; injection hl1
    subst this
    refine ⟨out, _, e1, e2, hl2, by simpa using hl2, hl2, fun k hk => ?_⟩
    rw [abs_getD (by omega)]
    exact (NN.rfl' _).mono hu (Nat.zero_le _)
  obtain ⟨⟨rank, rankMin, rankMax, trueRank, shape, transpose, seed⟩, data⟩ := D
  cases data with
  | gauss =>
    cases X with
    | sparse X => exact exactCase hf (by unfold DRM.absOwn; simp only [hl1]; rfl)
    | _ => simp [DRMData.supports] at hsup
  | sign nnz =>
    cases X with
    | sparse X => exact exactCase hf (by unfold DRM.absOwn; simp only [hl1]; rfl)
    | _ => simp [DRMData.supports] at hsup
  | dense mats =>
    obtain ⟨hml, hms⟩ := h.data_ok
    simp only at hml hms
    cases X with
    | sparse X =>
      refine exactCase hf ?_
      injection hl1 with hl1
      subst hl1
      show Except.ok _ = Except.ok _
      rw [List.map_map]
      congr 1
      refine List.map_congr_left fun mu hmu => ?_
      have hmu' : mu < mats.length := by
        have : mu < X.shape.length - 1 := List.mem_range.1 hmu
        have h2 : X.shape.length = shape.length := hlen
        omega
      show _ = ND.abs (ofFn [_, _] fun ij => _)
      rw [pick_abs]
      simp only [abs_getD hmu', Sparse.abs, List.map_map, Function.comp_def]
    | dense X =>
      refine exactCase hf ?_
      injection hl1 with hl1
      subst hl1
      rfl
    | tt X =>
      have hxl : X.cores.length = shape.length := by
        rw [← show X.shape.length = shape.length from hlen]; simp [TT.shape]
      simp only at htwo
      obtain ⟨pcs, ms, hpc, hms', rfl⟩ := hf
      obtain ⟨hp1, hp2⟩ := TT.partialDense_near hu hX (by omega) hpc
      obtain ⟨m, hm1, hm2⟩ := habs rfl
      have hml' := hms'.length_eq
      rw [List.length_zip, hml, hp1, hxl, Nat.min_self] at hml'
      refine ⟨l, m, hl1, hm1, hl2, hm2, by rw [List.length_map, ← hml'], fun k hk => ?_⟩
      simp only at hk
      injection hl1 with hl1
      injection hm1 with hm1
      have hpl : X.partialDenseLR.length = shape.length - 1 := by
        have := congrArg List.length hl1
        have h21 := (Props.C21_lr X hX (by rw [show X.shape.length = _ from hlen]; exact htwo)).1
        rw [h21, show X.shape.length = _ from hlen]
      have hpl' : X.abs.partialDenseLR.length = shape.length - 1 := by
        have h21 := (Props.C21_lr X.abs (TT.abs_valid hX) (by rw [TT.abs_shape, show X.shape.length = _ from hlen]; exact htwo)).1
        rw [h21, TT.abs_shape, show X.shape.length = _ from hlen]
      have hM := hms k hk
      have e1 : l.getD k (ND.zeros []) = ((mats.getD k (ND.zeros [])).matmul (X.partialDenseLR.getD k (ND.zeros []))).matT := by
        rw [← hl1, getD_eq (l := List.zipWith _ _ _) (by rw [List.length_zipWith]; omega), List.getElem_zipWith,
          getD_eq (l := mats) (by omega), getD_eq (l := X.partialDenseLR) (by omega)]
      have e2 : m.getD k (ND.zeros []) = ((mats.getD k (ND.zeros [])).abs.matmul (X.abs.partialDenseLR.getD k (ND.zeros []))).matT := by
        rw [← hm1, ← abs_getD (by omega), getD_eq (l := List.zipWith _ _ _) (by rw [List.length_zipWith, List.length_map]; omega), List.getElem_zipWith,
          getD_eq (l := mats.map ND.abs) (by rw [List.length_map]; omega), getD_eq (l := X.abs.partialDenseLR) (by omega)]
      rw [e1, e2, getD_map_lt _ _ k (by omega) (ND.zeros [])]
      have hz := forall₂_getD hms' (k := k) (by rw [List.length_zip, hml, hp1]; omega) (ND.zeros [], ND.zeros []) (ND.zeros [])
      rw [getD_eq (l := mats.zip pcs) (by rw [List.length_zip, hml, hp1]; omega), List.getElem_zip] at hz
      simp only [← getD_eq (l := mats) (k := k) (by omega) (ND.zeros []),
        ← getD_eq (l := pcs) (k := k) (by omega) (ND.zeros [])] at hz
      have hown : (DRMBase.ownShape ⟨rank, rankMin, rankMax, trueRank, shape, transpose, seed⟩)
          = X.shape := hs.symm
      rw [hown] at hM
      have := NN.mm hu (NN.rfl' (mats.getD k (ND.zeros []))) (hp2 k (by omega)) hz
        (t := (X.shape.take (k + 1)).prod) (by rw [ND.dim, hM]; rfl)
      refine this.matT.mono hu ?_
      show _ ≤ (X.rank.take (k + 1 - 1)).sum + _
      simp
    | _ => simp [DRMData.supports] at hsup
  | tt cores =>
    obtain ⟨hcl, hcs⟩ := h.data_ok
    simp only at hcl hcs
    set sh := (DRMBase.ownShape ⟨rank, rankMin, rankMax, trueRank, shape, transpose, seed⟩) with hsh
    have hC : Cores cores (fun k => (1 :: trueRank).getD k 0) (fun k => sh.getD k 0) := by
      intro k hk
      rw [hcl] at hk
      rw [hcs k hk]; rfl
    simp only at htwo
    have hne : 0 < cores.length := by rw [hcl]; omega
    have hshl : sh.length = shape.length := h.ownLen
    obtain ⟨m, hm1, hm2⟩ := habs rfl
    cases X with
    | sparse X =>
      obtain ⟨o, ho, rfl⟩ := hf
      obtain ⟨h1, h2⟩ := flSketchSparse_near hu hC rfl hne X ho
      have e1 : Except.ok l = Except.ok _ := hl1.symm
      have e2 : Except.ok m = Except.ok _ := hm1.symm
      injection e1 with e1
      injection e2 with e2
      have l1 : (ttSketchSparse cores X).length = cores.length := by
        have := congrArg List.length e1; rw [hl2, List.length_map, sliceCols_length] at this; rw [hcl]; exact this.symm
      have l2 : (ttSketchSparse (cores.map ND.abs) X.abs).length = cores.length := by
        have := congrArg List.length e2; rw [hm2, List.length_map, sliceCols_length] at this; rw [hcl]; exact this.symm
      refine ⟨l, m, hl1, hm1, hl2, hm2, by rw [List.length_map, sliceCols_length, h1, hcl], fun k hk => ?_⟩
      simp only at hk
      rw [e1, e2]
      rw [getD_map_lt _ _ k (by rw [sliceCols_length]; omega) (ND.zeros []), sliceCols_getD _ _ _ (by omega),
        getD_map_lt _ _ k (by rw [sliceCols_length]; omega) (ND.zeros []), sliceCols_getD _ _ _ (by omega),
        getD_map_lt _ _ k (by rw [sliceCols_length]; omega) (ND.zeros []), sliceCols_getD _ _ _ (by omega)]
      exact ((h2 k (by omega)).cols _ _).matT
    | tt X =>
      obtain ⟨x, hx, hx0, hx1⟩ := TT.Valid.cores hX
      rw [show X.shape = sh from hs] at hx
      have hxl : X.cores.length = shape.length := by
        rw [← hshl, ← show X.shape = sh from hs]; simp [TT.shape]
      obtain ⟨o, ho, rfl⟩ := hf
      obtain ⟨h1, h2⟩ := flSketchTT_near hu hC rfl hne X hx hx0 (by omega) ho
      have e1 : Except.ok l = Except.ok _ := hl1.symm
      have e2 : Except.ok m = Except.ok _ := hm1.symm
      injection e1 with e1
      injection e2 with e2
      have l1 : (ttSketchTT cores X).length = cores.length := by
        have := congrArg List.length e1; rw [hl2, sliceCols_length] at this; rw [hcl]; exact this.symm
      have l2 : (ttSketchTT (cores.map ND.abs) X.abs).length = cores.length := by
        have := congrArg List.length e2; rw [hm2, sliceCols_length] at this; rw [hcl]; exact this.symm
      refine ⟨l, m, hl1, hm1, hl2, hm2, by rw [sliceCols_length, h1, hcl], fun k hk => ?_⟩
      simp only at hk
      rw [e1, e2, sliceCols_getD _ _ _ (by omega), sliceCols_getD _ _ _ (by omega),
        sliceCols_getD _ _ _ (by omega)]
      refine ((h2 k (by omega)).cols _ _).mono hu (le_of_eq ?_)
      show ((List.range (k + 1)).map _).sum = ((List.range (k + 1)).map _).sum
      congr 1
      refine List.map_congr_left fun j hj => ?_
      have hj' := List.mem_range.1 hj
      show _ = (1 :: X.rank).getD j 0 * _ * X.shape.getD j 0 + 1
      rw [TT.rank_cons_getD hx hx0 (by omega), show X.shape = sh from hs]
    | cp X =>
      have hv : X.Valid := hX
      have hxl : X.cores.length = shape.length := by
        rw [← hshl, ← show X.shape = sh from hs]; simp [CP.shape]
      have hxs : ∀ k < X.cores.length, (X.cores.getD k (ND.zeros [])).shape = [sh.getD k 0, X.rank] := by
        intro k hk
        rw [← show X.shape = sh from hs]
        unfold CP.shape
        rw [getD_map_lt _ _ k hk (ND.zeros []), getD_eq hk]
        obtain ⟨n, hn⟩ := hv.2 _ (List.getElem_mem hk)
        rw [ND.dim, hn]; rfl
      obtain ⟨o, ho, rfl⟩ := hf
      obtain ⟨h1, h2⟩ := flSketchCP_near hu hC rfl hne X hxs (by omega) ho
      have e1 : Except.ok l = Except.ok _ := hl1.symm
      have e2 : Except.ok m = Except.ok _ := hm1.symm
      injection e1 with e1
      injection e2 with e2
      have l1 : (ttSketchCP cores X).length = cores.length := by
        have := congrArg List.length e1; rw [hl2, sliceCols_length] at this; rw [hcl]; exact this.symm
      have l2 : (ttSketchCP (cores.map ND.abs) X.abs).length = cores.length := by
        have := congrArg List.length e2; rw [hm2, sliceCols_length] at this; rw [hcl]; exact this.symm
      refine ⟨l, m, hl1, hm1, hl2, hm2, by rw [sliceCols_length, h1, hcl], fun k hk => ?_⟩
      simp only at hk
      rw [e1, e2, sliceCols_getD _ _ _ (by omega), sliceCols_getD _ _ _ (by omega),
        sliceCols_getD _ _ _ (by omega)]
      refine ((h2 k (by omega)).cols _ _).mono hu (le_of_eq ?_)
      show ((List.range (k + 1)).map _).sum = ((List.range (k + 1)).map _).sum
      congr 1
      refine List.map_congr_left fun j hj => ?_
      show _ = _ * X.shape.getD j 0 + 1
      rw [show X.shape = sh from hs]
    | dense X =>
      obtain ⟨o, ho, rfl⟩ := hf
      obtain ⟨h1, h2⟩ := flSketchDense_near hu hC rfl hne ho
      have e1 : Except.ok l = Except.ok _ := hl1.symm
      have e2 : Except.ok m = Except.ok _ := hm1.symm
      injection e1 with e1
      injection e2 with e2
      have l1 : (ttSketchDense cores).length = cores.length := by
        have := congrArg List.length e1; rw [hl2, List.length_map] at this; rw [hcl]; exact this.symm
      have l2 : (ttSketchDense (cores.map ND.abs)).length = cores.length := by
        have := congrArg List.length e2; rw [hm2, List.length_map] at this; rw [hcl]; exact this.symm
      refine ⟨l, m, hl1, hm1, hl2, hm2, by rw [List.length_map, h1, hcl], fun k hk => ?_⟩
      simp only at hk
      rw [e1, e2, getD_map_lt _ _ k (by omega) (ND.zeros []), getD_map_lt _ _ k (by omega) (ND.zeros []),
        getD_map_lt _ _ k (by omega) (ND.zeros [])]
      exact (h2 k (by omega)).matT
    | tucker X =>
      have hv : X.Valid := hX
      have hfl := hfull trivial
      have hxl : X.factors.length = shape.length := by
        rw [← hshl, ← show X.shape = sh from hs]; simp [Tucker.shape]
      have hxs : ∀ k < X.factors.length, (X.factors.getD k (ND.zeros [])).shape
          = [X.rank.getD k 0, sh.getD k 0] := by
        intro k hk
        rw [← show X.shape = sh from hs]
        unfold Tucker.shape Tucker.rank
        rw [getD_map_lt _ _ k hk (ND.zeros []), getD_map_lt _ _ k hk (ND.zeros []), getD_eq hk]
        obtain ⟨s, n, hn⟩ := hv.1 _ (List.getElem_mem hk)
        rw [ND.dim, ND.dim, hn]; rfl
      obtain ⟨f1, f2⟩ := hfl 0 (by simp only; omega)
      simp only at f1 f2
      have hr0 : rank.getD 0 0 = (1 :: trueRank).getD 1 0 := by
        have := h.rank_getD (k := 0) (by simp only; omega)
        simp only at this
        rw [this, f1, f2]; rfl
      obtain ⟨hok, ho⟩ := hf
      simp only [hr0] at ho
      obtain ⟨h1, h2⟩ := flSketchTucker_near (s := fun k => X.rank.getD k 0) hu hC rfl hne X hxs (by omega) rfl ho
      have e1 : (if tuckerReshapeOk cores (rank.getD 0 0) X then
        Except.ok (ttSketchTucker cores (rank.getD 0 0) X) else .error PyErr.valueError) = Except.ok l := hl1
      rw [if_pos hok] at e1
      have e2 : (if tuckerReshapeOk (cores.map ND.abs) (rank.getD 0 0) X.abs then
        Except.ok (ttSketchTucker (cores.map ND.abs) (rank.getD 0 0) X.abs) else .error PyErr.valueError)
          = Except.ok m := hm1
      have hok' : tuckerReshapeOk (cores.map ND.abs) (rank.getD 0 0) X.abs := by
        by_contra hc
        rw [if_neg hc] at e2
        cases e2
      rw [if_pos hok'] at e2
      injection e1 with e1
      injection e2 with e2
      refine ⟨l, m, hl1, hm1, hl2, hm2, by rw [h1, hcl], fun k hk => ?_⟩
      simp only at hk
      rw [← e1, ← e2, hr0]
      refine (h2 k (by omega)).mono hu (le_of_eq ?_)
      show ((List.range (k + 1)).map _).sum = ((List.range (k + 1)).map _).sum
      congr 1
      refine List.map_congr_left fun j hj => ?_
      show _ = X.shape.getD j 0 + _
      rw [show X.shape = sh from hs]

end TTS
