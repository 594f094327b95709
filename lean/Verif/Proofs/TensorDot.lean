import Verif.Proofs.TensorOps

/-! Gather, inner products, TT addition. -/

namespace TTS

open Finset

variable {K : Type*}

section
variable [CommSemiring K]

/-! ### gather -/

theorem gather_inner (idxs : List (List ℕ)) (result C : ND K) (i m : ℕ) (c : ℕ) :
    let F := (List.range m).foldl (fun next j =>
      ND.ofFn next.shape fun nr =>
        if (idxs.getD (nr.getD 0 0) []).getD i 0 = j then
          ∑ t ∈ range (result.dim 1), result.get [nr.getD 0 0, t] * C.get [t, j, nr.getD 1 0]
        else next.get nr) (ND.zeros [idxs.length, c])
    F.shape = [idxs.length, c] ∧ ∀ n x, n < idxs.length → x < c → F.get [n, x]
      = if (idxs.getD n []).getD i 0 < m then
          ∑ t ∈ range (result.dim 1), result.get [n, t] * C.get [t, (idxs.getD n []).getD i 0, x]
        else 0 := by
  induction m with
  | zero => simp
  | succ m ih =>
    obtain ⟨h1, h2⟩ := ih
    simp only [List.range_succ, List.foldl_append, List.foldl_cons, List.foldl_nil]
    refine ⟨h1, fun n x hn hx => ?_⟩
    rw [ND.ofFn_get (by rw [h1]; simp [hn, hx])]
    simp only [List.getD_cons_zero, List.getD_cons_succ]
    rw [h2 n x hn hx]
    by_cases he : (idxs.getD n []).getD i 0 = m
    · rw [if_pos he, if_pos (by omega), he]
    · rw [if_neg he]
      by_cases hlt : (idxs.getD n []).getD i 0 < m
      · rw [if_pos hlt, if_pos (by omega)]
      · rw [if_neg hlt, if_neg (by omega)]

theorem gatherStep_spec (idxs : List (List ℕ)) {result C : ND K} {i r m c : ℕ}
    (hr : result.shape = [idxs.length, r]) (hC : C.shape = [r, m, c]) :
    (TT.gatherStep idxs result (C, i)).shape = [idxs.length, c] ∧
    ∀ n x, n < idxs.length → (TT.gatherStep idxs result (C, i)).get [n, x]
      = ∑ t ∈ range r, result.get [n, t] * C.get [t, (idxs.getD n []).getD i 0, x] := by
  have h := gather_inner idxs result C i m c
  have hd1 : C.dim 1 = m := by simp [ND.dim, hC]
  have hd2 : C.dim 2 = c := by simp [ND.dim, hC]
  have hd3 : result.dim 1 = r := by simp [ND.dim, hr]
  simp only [TT.gatherStep, hd1, hd2, hd3] at h ⊢
  refine ⟨h.1, fun n x hn => ?_⟩
  by_cases hx : x < c
  · rw [h.2 n x hn hx]
    by_cases hi : (idxs.getD n []).getD i 0 < m
    · rw [if_pos hi]
    · rw [if_neg hi]
      symm; apply sum_eq_zero; intro t _
      rw [ND.oob3 hC (by tauto), mul_zero]
  · rw [ND.oob2 h.1 (by tauto)]
    symm; apply sum_eq_zero; intro t _
    rw [ND.oob3 hC (by tauto), mul_zero]

theorem gather_foldl (idxs : List (List ℕ)) : ∀ (rest done : List (ND K)) (result : ND K) (r s : ℕ),
    TTChain 1 done r → TTChain r rest s → result.shape = [idxs.length, r] →
    (∀ n < idxs.length, (idxs.getD n []).length = (done ++ rest).length) →
    (∀ n x, n < idxs.length → result.get [n, x]
      = ttVal done ((idxs.getD n []).take done.length) 0 x) →
    ((rest.zipIdx done.length).foldl (TT.gatherStep idxs) result).shape = [idxs.length, s] ∧
    ∀ n x, n < idxs.length → ((rest.zipIdx done.length).foldl (TT.gatherStep idxs) result).get [n, x]
      = ttVal (done ++ rest) (idxs.getD n []) 0 x
  | [], done, result, r, s, hd, hr, hs, hin, hg => by
    cases hr
    refine ⟨hs, fun n x hn => ?_⟩
    have hl := hin n hn
    simp only [List.append_nil] at hl
    simp only [List.zipIdx_nil, List.foldl_nil, List.append_nil]
    rw [hg n x hn, List.take_of_length_le (by omega)]
  | C :: rest, done, result, r, s, hd, ⟨m, t, hC, hr⟩, hs, hin, hg => by
    have hin' : ∀ n < idxs.length, done.length < (idxs.getD n []).length := by
      intro n hn
      rw [hin n hn]; simp
    obtain ⟨h1, h2⟩ := gatherStep_spec idxs hs hC (i := done.length)
    have ih := gather_foldl idxs rest (done ++ [C]) (TT.gatherStep idxs result (C, done.length)) t s
      (hd.append ⟨m, t, hC, rfl⟩) hr h1 (by simpa using hin)
      (by
        intro n x hn
        have hb := hin' n hn
        rw [h2 n x hn]
        have e : (idxs.getD n []).take (done ++ [C]).length
            = (idxs.getD n []).take done.length ++ [(idxs.getD n []).getD done.length 0] := by
          rw [List.length_append, List.length_singleton, List.take_add_one]
          generalize idxs.getD n [] = l at hb
          simp [List.getD_eq_getElem?_getD, List.getElem?_eq_getElem hb]
        rw [e, ttVal_concat hd hC _ (by rw [List.length_take]; omega) _ _ _ (by simp)]
        exact sum_congr rfl fun y _ => by rw [hg n y hn])
    rw [List.length_append, List.length_singleton] at ih
    simp only [List.zipIdx_cons, List.foldl_cons]
    refine ⟨ih.1, fun n x hn => ?_⟩
    rw [ih.2 n x hn]; simp

/-- Indices outside the range select zeros. -/
theorem TT.gather_len {X : TT K} (h : X.Valid) (idxs : List (List ℕ))
    (hin : ∀ i ∈ idxs, i.length = X.cores.length) : X.gather idxs = idxs.map fun i => ttEntry X i := by
  obtain ⟨cores⟩ := X
  obtain ⟨hne, hch⟩ := h
  match cores, hne, hch with
  | C :: Cs, _, ⟨n, t, hC, hCs⟩ =>
    have hM : (C.reshape C.shape.tail).shape = [n, t] := by simp [hC]
    have hMd : (C.reshape C.shape.tail).dim 1 = t := by simp [ND.dim, hC]
    have hin' : ∀ m < idxs.length, (idxs.getD m []).length = (C :: Cs).length := by
      intro m hm
      rw [List.getD_eq_getElem _ _ hm]
      exact hin _ (List.getElem_mem hm)
    set result := ND.ofFn [idxs.length, (C.reshape C.shape.tail).dim 1]
      fun nr => (C.reshape C.shape.tail).get [(idxs.getD (nr.getD 0 0) []).getD 0 0, nr.getD 1 0]
      with hres
    have hrs : result.shape = [idxs.length, t] := by rw [hres, ND.ofFn_shape, hMd]
    obtain ⟨h1, h2⟩ := gather_foldl idxs Cs [C] result t 1 ⟨n, t, hC, rfl⟩ hCs hrs hin'
      (by
        intro m x hm
        have hi0 := hin' m hm
        have : ∃ a l, idxs.getD m [] = a :: l := by
          cases hh : idxs.getD m [] with
          | nil => rw [hh] at hi0; simp at hi0
          | cons a l => exact ⟨a, l, rfl⟩
        obtain ⟨a, l, hal⟩ := this
        have e : ttVal [C] ((idxs.getD m []).take [C].length) 0 x = C.get [0, a, x] := by
          rw [hal]
          have := ttVal_concat (As := ([] : List (ND K))) (r := 1) (s := 1) rfl hC [] rfl a 0 x
            (by simp)
          simpa using this
        rw [e]
        by_cases hx : x < t
        · rw [hres, ND.ofFn_get (by rw [hMd]; simp [hm, hx])]
          simp only [List.getD_cons_zero, List.getD_cons_succ]
          rw [hal, List.getD_cons_zero, ND.reshape_drop_one (by simp [hC])]
        · rw [ND.oob2 hrs (by tauto), ND.oob3 hC (by tauto)])
    set F := (Cs.zipIdx 1).foldl (gatherStep idxs) result with hF
    have hFs : F.shape = [idxs.length, 1] := h1
    have hgoal : TT.gather ⟨C :: Cs⟩ idxs = (List.range (F.reshape [F.shape.prod]).size).map
        fun n => (F.reshape [F.shape.prod]).get [n] := rfl
    rw [hgoal]
    apply List.ext_getElem
    · simp [ND.size, hFs]
    · intro k hk1 hk2
      have hk : k < idxs.length := by simpa using hk2
      simp only [List.getElem_map, List.getElem_range]
      have e : (F.reshape [F.shape.prod]).get [k] = F.get [k, 0] := by
        have := ND.reshape_flat (A := F) (p := [k, 0]) (by rw [hFs]; simp [hk])
        rw [← this, hFs]; simp
      rw [e]
      have := h2 k 0 hk
      simp only [List.length_singleton, List.singleton_append] at this
      rw [← hF] at this
      rw [this, ttEntry, List.getD_eq_getElem _ _ hk]

theorem TT.gather_eq {X : TT K} (h : X.Valid) (idxs : List (List ℕ))
    (hin : ∀ i ∈ idxs, InR X.shape i) : X.gather idxs = idxs.map fun i => ttEntry X i :=
  TT.gather_len h idxs fun i hi => by rw [(hin i hi).length]; simp [TT.shape]

theorem cp_gather_foldl (r : ℕ) : ∀ (Cs : List (ND K)) (i : List ℕ) (z : K),
    i.length = Cs.length →
    (Cs.zip i).foldl (fun res p => res * p.1.get [p.2, r]) z = z * cpProd Cs i r
  | [], [], z, _ => by simp [cpProd]
  | C :: Cs, j :: i, z, h => by
    simp only [List.zip_cons_cons, List.foldl_cons, cpProd]
    rw [cp_gather_foldl r Cs i _ (by simpa using h), mul_assoc]
  | [], _ :: _, _, h => by simp at h
  | _ :: _, [], _, h => by simp at h

theorem CP.gather_eq (X : CP K) (idxs : List (List ℕ))
    (hin : ∀ i ∈ idxs, InR X.shape i) : X.gather idxs = idxs.map fun i => cpEntry X i := by
  refine List.map_congr_left fun i hi => ?_
  refine sum_congr rfl fun r _ => ?_
  rw [cp_gather_foldl r X.cores i 1 (by simpa [CP.shape] using (hin i hi).length), one_mul]

theorem Leaf.gather_eq {X : Leaf K} (h : X.Valid) {g : List (List ℕ) → List K}
    (hg : X.gather? = some g) (idxs : List (List ℕ)) (hin : ∀ i ∈ idxs, InR X.shape i) :
    g idxs = idxs.map fun i => X.toNumpy.get i := by
  cases X with
  | dense X => cases hg
  | tucker X => cases hg
  | sparse X =>
    cases hg
    exact List.map_congr_left fun i hi => Sparse.dict_get h (hin i hi)
  | tt X =>
    cases hg
    rw [TT.gather_eq h idxs hin]
    exact List.map_congr_left fun i _ => (TT.toNumpy_get h i).symm
  | cp X =>
    cases hg
    rw [CP.gather_eq X idxs hin]
    exact List.map_congr_left fun i _ => (CP.toNumpy_get h i).symm

/-! ### inner products -/

theorem Leaf.denseDot_eq {X Y : Leaf K} (hs : X.toNumpy.shape = Y.toNumpy.shape) :
    Leaf.denseDot X Y = innerND X.toNumpy Y.toNumpy := by
  rw [Leaf.denseDot, innerND, ← sum_ravel X.toNumpy.shape]
  refine sumIdx_congr fun i hi => ?_
  rw [ND.reshape_flat hi, hs, ND.reshape_flat (by rwa [← hs])]

theorem innerND_comm {A B : ND K} (h : A.shape = B.shape) : innerND A B = innerND B A := by
  rw [innerND, innerND, h]
  exact sumIdx_congr fun i _ => mul_comm _ _

theorem sparse_inner {X : Sparse K} (h : X.Valid) (hd : X.Distinct) (B : ND K) :
    innerND X.toNumpy B = (X.entries.map fun e => B.get e.1 * e.2).sum := by
  rw [innerND, X.toNumpy_shape]
  have : ∀ i, InR X.shape i → X.toNumpy.get i * B.get i
      = (X.entries.map fun e => if i = e.1 then B.get i * e.2 else 0).sum := by
    intro i _
    rw [Sparse.toNumpy_get h hd, sparseEntry, ← List.sum_map_mul_right]
    congr 1
    refine List.map_congr_left fun e _ => ?_
    by_cases he : e.1 = i
    · rw [if_pos he, if_pos he.symm, mul_comm]
    · rw [if_neg he, if_neg (fun h => he h.symm), zero_mul]
  rw [sumIdx_congr this, sumIdx_list_sum]
  congr 1
  refine List.map_congr_left fun e he => ?_
  rw [sumIdx_ite_eq (h e he) (fun i => B.get i * e.2)]

theorem vdot_map (es : List (List ℕ × K)) (f : List ℕ → K) :
    Leaf.vdot ((es.map Prod.fst).map f) (es.map Prod.snd)
      = (es.map fun e => f e.1 * e.2).sum := by
  induction es with
  | nil => rfl
  | cons e es ih =>
    simp only [Leaf.vdot, List.map_cons, List.zipWith_cons_cons, List.sum_cons] at ih ⊢
    rw [ih]

theorem tt_dot_foldl : ∀ (As Bs : List (ND K)) (R : ND K) (r r' s s' : ℕ),
    TTChain r As s → TTChain r' Bs s' → coreShape As = coreShape Bs → R.shape = [r, r'] →
    ((As.zip Bs).foldl (fun R p => ND.es_ij_ika_jkb_ab R p.1 p.2) R).shape = [s, s'] ∧
    ∀ x y, ((As.zip Bs).foldl (fun R p => ND.es_ij_ika_jkb_ab R p.1 p.2) R).get [x, y]
      = sumIdx (coreShape As) fun p => ∑ a ∈ range r, ∑ b ∈ range r',
          R.get [a, b] * (ttVal As p a x * ttVal Bs p b y)
  | [], [], R, r, r', s, s', hA, hB, _, hR => by
    cases hA; cases hB
    refine ⟨hR, fun x y => ?_⟩
    simp only [coreShape, List.map_nil, List.zip_nil_left, List.foldl_nil, sumIdx_nil,
      ttVal_nil_nil]
    by_cases hx : x < r
    · by_cases hy : y < r'
      · rw [sum_eq_single x, sum_eq_single y]
        · simp
        · intro b _ hb; simp [hb]
        · intro h; exact absurd (mem_range.2 hy) h
        · intro a _ ha; simp [ha]
        · intro h; exact absurd (mem_range.2 hx) h
      · rw [ND.oob2 hR (by tauto)]
        symm; refine sum_eq_zero fun a _ => sum_eq_zero fun b hb => ?_
        have := mem_range.1 hb
        rw [if_neg (show ¬ b = y by omega)]; simp
    · rw [ND.oob2 hR (by tauto)]
      symm; refine sum_eq_zero fun a ha => sum_eq_zero fun b hb => ?_
      have := mem_range.1 ha
      rw [if_neg (show ¬ a = x by omega)]; simp
  | A :: As, B :: Bs, R, r, r', s, s', ⟨n, t, hA, hAs⟩, ⟨n', t', hB, hBs⟩, hsh, hR => by
    have hn : n = n' := by
      have : A.dim 1 = B.dim 1 := by simpa [coreShape] using (List.cons.inj hsh).1
      simpa [ND.dim, hA, hB] using this
    subst hn
    obtain ⟨h1, h2⟩ := tt_dot_foldl As Bs (ND.es_ij_ika_jkb_ab R A B) t t' s s' hAs hBs
      (List.cons.inj hsh).2 (ND.es_ij_ika_jkb_ab_shape hR hA hB)
    refine ⟨h1, fun x y => ?_⟩
    simp only [List.zip_cons_cons, List.foldl_cons]
    rw [h2]
    have hcs : coreShape (A :: As) = n :: coreShape As := by simp [coreShape, ND.dim, hA]
    rw [hcs, sumIdx_cons, ← sumIdx_sum]
    refine sumIdx_congr fun p _ => ?_
    simp only [ND.es_ij_ika_jkb_ab_get hR hA hB, ttVal_cons hA, ttVal_cons hB, sum_mul, mul_sum]
    -- both sides: sums over a' < t, b' < t', i, j, k
    have lhs : ∀ (f : ℕ → ℕ → ℕ → ℕ → ℕ → K),
        (∑ a' ∈ range t, ∑ b' ∈ range t', ∑ i ∈ range r, ∑ j ∈ range r', ∑ k ∈ range n, f a' b' i j k)
        = ∑ k ∈ range n, ∑ i ∈ range r, ∑ j ∈ range r', ∑ a' ∈ range t, ∑ b' ∈ range t', f a' b' i j k := by
      intro f
      simp only [← sum_product']
      refine sum_bij' (fun z _ => (z.2.2.2.2, z.2.2.1, z.2.2.2.1, z.1, z.2.1))
        (fun w _ => (w.2.2.2.1, w.2.2.2.2, w.2.1, w.2.2.1, w.1)) ?_ ?_ ?_ ?_ ?_
      · simp; tauto
      · simp; tauto
      · simp
      · simp
      · simp
    have key : ∀ (f : ℕ → ℕ → ℕ → ℕ → ℕ → K) (g : ℕ → ℕ → ℕ → ℕ → ℕ → K),
        (∀ a' b' i j k, f a' b' i j k = g a' b' i j k) →
        (∑ a' ∈ range t, ∑ b' ∈ range t', ∑ i ∈ range r, ∑ j ∈ range r', ∑ k ∈ range n, f a' b' i j k)
        = ∑ k ∈ range n, ∑ i ∈ range r, ∑ j ∈ range r', ∑ b' ∈ range t', ∑ a' ∈ range t, g a' b' i j k := by
      intro f g hfg
      rw [lhs]
      refine sum_congr rfl fun k _ => sum_congr rfl fun i _ => sum_congr rfl fun j _ => ?_
      rw [sum_comm]
      refine sum_congr rfl fun _ _ => sum_congr rfl fun _ _ => hfg _ _ _ _ _
    exact key _ _ (fun a' b' i j k => by ring)
  | [], _ :: _, _, _, _, _, _, _, _, h, _ => by simp [coreShape] at h
  | _ :: _, [], _, _, _, _, _, _, _, h, _ => by simp [coreShape] at h

theorem TT.dot_eq {X Y : TT K} (hX : X.Valid) (hY : Y.Valid) (hs : X.shape = Y.shape) :
    X.dot Y = innerND X.toNumpy Y.toNumpy := by
  have hi : innerND X.toNumpy Y.toNumpy = sumIdx X.shape fun i => ttEntry X i * ttEntry Y i := by
    rw [innerND, TT.toNumpy_shape hX]
    exact sumIdx_congr fun i _ => by rw [TT.toNumpy_get hX, TT.toNumpy_get hY]
  rw [hi]
  obtain ⟨As⟩ := X
  obtain ⟨Bs⟩ := Y
  obtain ⟨hne, hch⟩ := hX
  obtain ⟨hne', hch'⟩ := hY
  match As, Bs, hne, hne', hch, hch', hs with
  | A :: As, B :: Bs, _, _, ⟨n, t, hA, hAs⟩, ⟨n', t', hB, hBs⟩, hs =>
    have hn : n = n' := by
      have : A.dim 1 = B.dim 1 := by simpa [TT.shape] using (List.cons.inj hs).1
      simpa [ND.dim, hA, hB] using this
    subst hn
    have hR : (ND.es_ijk_ljm_km A B).shape = [t, t'] := ND.es_ijk_ljm_km_shape hA hB
    obtain ⟨h1, h2⟩ := tt_dot_foldl As Bs _ t t' 1 1 hAs hBs (List.cons.inj hs).2 hR
    have e : TT.dot ⟨A :: As⟩ ⟨B :: Bs⟩
        = ((As.zip Bs).foldl (fun R p => ND.es_ij_ika_jkb_ab R p.1 p.2) (ND.es_ijk_ljm_km A B)).total :=
      rfl
    rw [e, ND.total, h1]
    simp only [sumIdx_cons, sumIdx_nil, sum_range_one]
    rw [h2]
    have hsh : (⟨A :: As⟩ : TT K).shape = n :: coreShape As := by
      simp [TT.shape, coreShape, ND.dim, hA]
    rw [hsh, sumIdx_cons, ← sumIdx_sum]
    refine sumIdx_congr fun p _ => ?_
    simp only [ttEntry, ttVal_cons hA, ttVal_cons hB, ND.es_ijk_ljm_km_get hA hB, sum_range_one,
      sum_mul, mul_sum]
    have key : ∀ (f g : ℕ → ℕ → ℕ → K), (∀ a b k, f a b k = g a b k) →
        (∑ a ∈ range t, ∑ b ∈ range t', ∑ k ∈ range n, f a b k)
        = ∑ k ∈ range n, ∑ b ∈ range t', ∑ a ∈ range t, g a b k := by
      intro f g hfg
      have h1 : ∀ a, ∑ b ∈ range t', ∑ k ∈ range n, f a b k = ∑ k ∈ range n, ∑ b ∈ range t', f a b k :=
        fun a => sum_comm
      simp only [h1]
      rw [sum_comm]
      refine sum_congr rfl fun k _ => ?_
      rw [sum_comm]
      exact sum_congr rfl fun _ _ => sum_congr rfl fun _ _ => hfg _ _ _
    exact key _ _ (fun a b k => by ring)

theorem Leaf.dotRev_eq {X Y : Leaf K} (hX : X.Valid) (hY : Y.Valid) (dX : X.Distinct)
    (hs : X.shape = Y.shape) : X.dotRev Y = innerND X.toNumpy Y.toNumpy := by
  have hs' : X.toNumpy.shape = Y.toNumpy.shape := by
    rw [Leaf.toNumpy_shape hX, Leaf.toNumpy_shape hY, hs]
  cases X with
  | sparse S =>
    simp only [Leaf.dotRev]
    cases hg : Y.gather? with
    | none => exact Leaf.denseDot_eq hs'
    | some g =>
      simp only
      rw [Leaf.gather_eq hY hg _ (by
        intro i hi
        obtain ⟨e, he, rfl⟩ := List.mem_map.1 hi
        rw [← hs]; exact hX e he), vdot_map]
      exact (sparse_inner hX dX _).symm
  | tt A =>
    cases Y with
    | tt B => exact TT.dot_eq hX hY hs
    | _ => exact Leaf.denseDot_eq hs'
  | _ => exact Leaf.denseDot_eq hs'

theorem Leaf.dot_eq {X Y : Leaf K} (hX : X.Valid) (hY : Y.Valid) (dX : X.Distinct)
    (dY : Y.Distinct) (hs : X.shape = Y.shape) : X.dot Y = innerND X.toNumpy Y.toNumpy := by
  have hs' : X.toNumpy.shape = Y.toNumpy.shape := by
    rw [Leaf.toNumpy_shape hX, Leaf.toNumpy_shape hY, hs]
  have hrev : Y.dotRev X = innerND X.toNumpy Y.toNumpy := by
    rw [Leaf.dotRev_eq hY hX dY hs.symm, innerND_comm hs'.symm]
  cases X with
  | sparse S =>
    simp only [Leaf.dot]
    cases hg : Y.gather? with
    | none => exact hrev
    | some g =>
      simp only
      rw [Leaf.gather_eq hY hg _ (by
        intro i hi
        obtain ⟨e, he, rfl⟩ := List.mem_map.1 hi
        rw [← hs]; exact hX e he), vdot_map]
      exact (sparse_inner hX dX _).symm
  | tt A =>
    cases Y with
    | tt B => exact TT.dot_eq hX hY hs
    | _ => exact hrev
  | _ => exact hrev

theorem foldl_add_sum (l : List K) (z : K) : l.foldl (· + ·) z = z + l.sum := by
  induction l generalizing z with
  | nil => simp
  | cons a l ih => simp [ih, add_assoc]

theorem inner_sum_left {ts : List (Leaf K)} {A : ND K} {sh : List ℕ} (hA : A.shape = sh)
    (hg : ∀ i, A.get i = (ts.map fun t => t.toNumpy.get i).sum)
    (hts : ∀ t ∈ ts, t.toNumpy.shape = sh) (B : ND K) :
    innerND A B = (ts.map fun t => innerND t.toNumpy B).sum := by
  rw [innerND, hA]
  simp only [hg, ← List.sum_map_mul_right]
  rw [sumIdx_list_sum]
  congr 1
  refine List.map_congr_left fun t ht => ?_
  rw [innerND, hts t ht]

theorem TSum.inner_left {X : TSum K} (h : X.Valid) (B : ND K) :
    innerND X.toNumpy B = (X.tensors.map fun t => innerND t.toNumpy B).sum :=
  inner_sum_left (TSum.toNumpy_shape h) (TSum.toNumpy_get h)
    (fun t ht => by rw [Leaf.toNumpy_shape (h t ht).1, (h t ht).2]) B

theorem Tensor.dotLeafSum_eq {X : Leaf K} {Y : TSum K} (hX : X.Valid) (hY : Y.Valid)
    (dX : X.Distinct) (dY : ∀ t ∈ Y.tensors, t.Distinct) (hs : X.shape = Y.shape) :
    Tensor.dotLeafSum X Y = innerND X.toNumpy Y.toNumpy := by
  rw [innerND_comm (by rw [Leaf.toNumpy_shape hX, TSum.toNumpy_shape hY, hs]),
    TSum.inner_left hY, Tensor.dotLeafSum, foldl_add_sum, zero_add]
  congr 1
  refine List.map_congr_left fun t ht => ?_
  exact Leaf.dot_eq (hY t ht).1 hX (dY t ht) dX ((hY t ht).2.trans hs.symm)

theorem Tensor.dot_eq {X Y : Tensor K} (hX : X.Valid) (hY : Y.Valid) (dX : X.Distinct)
    (dY : Y.Distinct) (hs : X.shape = Y.shape) : X.dot Y = innerND X.toNumpy Y.toNumpy := by
  cases X with
  | leaf X =>
    cases Y with
    | leaf Y => exact Leaf.dot_eq hX hY dX dY hs
    | sum Y => exact Tensor.dotLeafSum_eq hX hY dX dY hs
  | sum X =>
    cases Y with
    | leaf Y =>
      show (X.tensors.map fun t => t.dot Y).foldl (· + ·) 0 = innerND X.toNumpy Y.toNumpy
      rw [foldl_add_sum, zero_add, TSum.inner_left hX]
      congr 1
      refine List.map_congr_left fun t ht => ?_
      exact Leaf.dot_eq (hX t ht).1 hY (dX t ht) dY ((hX t ht).2.trans hs)
    | sum Y =>
      show (X.tensors.map fun t => Tensor.dotLeafSum t Y).foldl (· + ·) 0
        = innerND X.toNumpy Y.toNumpy
      rw [foldl_add_sum, zero_add, TSum.inner_left hX]
      congr 1
      refine List.map_congr_left fun t ht => ?_
      exact Tensor.dotLeafSum_eq (hX t ht).1 hY (dX t ht) dY ((hX t ht).2.trans hs)

end

end TTS
