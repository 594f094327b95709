import Verif.Proofs.FloatRun

/-! Rounding errors of `gather` and `dot`. -/

namespace TTS
open Finset ND

/-! ### Lists -/

/-- Entrywise `Near` for lists. -/
inductive NearL (p : ℝ) : List ℝ → List ℝ → List ℝ → Prop
  | nil : NearL p [] [] []
  | cons {v x a : ℝ} {vs xs as : List ℝ} : Near p v x a → NearL p vs xs as →
      NearL p (v :: vs) (x :: xs) (a :: as)

theorem NearL.map {p : ℝ} {ι : Type*} {f g h : ι → ℝ} : ∀ (l : List ι),
    (∀ i ∈ l, Near p (f i) (g i) (h i)) → NearL p (l.map f) (l.map g) (l.map h)
  | [], _ => .nil
  | i :: l, H => .cons (H i (by simp)) (NearL.map l fun j hj => H j (by simp [hj]))

theorem NearL.length {p : ℝ} {v x a : List ℝ} (h : NearL p v x a) :
    v.length = x.length ∧ a.length = x.length := by
  induction h with
  | nil => simp
  | cons _ _ ih => simp [ih.1, ih.2]

theorem NearL.mono {p q : ℝ} (hpq : p ≤ q) {v x a : List ℝ} (h : NearL p v x a) : NearL q v x a := by
  induction h with
  | nil => exact .nil
  | cons h _ ih => exact .cons (h.mono hpq) ih

theorem vdot_near {p q : ℝ} (hp : 1 ≤ p) (hq : 1 ≤ q) {v x a w y b : List ℝ} (h : NearL p v x a)
    (k : NearL q w y b) : Near (p * q) (Leaf.vdot v w) (Leaf.vdot x y) (Leaf.vdot a b) ∧
      Leaf.vdot (v.map (|·|)) (w.map (|·|)) ≤ p * q * Leaf.vdot a b := by
  unfold Leaf.vdot
  induction h generalizing w y b with
  | nil => simp [Near]
  | cons h _ ih =>
    cases k with
    | nil => simp [Near]
    | cons k ks =>
      have := ih ks
      simp only [List.zipWith_cons_cons, List.sum_cons, List.map_cons]
      refine ⟨(h.mul hp hq k).add this.1, ?_⟩
      have e := (h.mul hp hq k).abs_le
      rw [abs_mul] at e
      have := this.2
      linarith

theorem FlVdot.near {u : ℝ} (hu : 0 ≤ u) {p q : ℝ} (hp : 1 ≤ p) (hq : 1 ≤ q)
    {v x a w y b : List ℝ} (h : NearL p v x a) (k : NearL q w y b) {c : ℝ} (hc : FlVdot u v w c) :
    Near ((1 + u) ^ x.length * (p * q)) c (Leaf.vdot x y) (Leaf.vdot a b) := by
  have h1 := FlVal.near_le hu hc
  rw [h.length.1] at h1
  obtain ⟨h2, h3⟩ := vdot_near hp hq h k
  exact h2.trans h1.1 (one_le_pow_u hu _) h3

/-! ### gather -/

theorem gatherStep_fold_near {p q : ℝ} (hp : 1 ≤ p) (hq : 1 ≤ q) (idxs : List (List ℕ)) (i n : ℕ)
    {R' R M C' C D : ND ℝ} (hR : NDNear p R' R M) (hC : NDNear q C' C D) (js : List ℕ) :
    ∀ {N' N L : ND ℝ}, NDNear (p * q) N' N L →
    let step := fun (R C : ND ℝ) (next : ND ℝ) (j : ℕ) => ND.ofFn next.shape fun nr =>
        if (idxs.getD (nr.getD 0 0) []).getD i 0 = j then
          ∑ t ∈ range n, R.get [nr.getD 0 0, t] * C.get [t, j, nr.getD 1 0]
        else next.get nr
    NDNear (p * q) (js.foldl (step R' C') N') (js.foldl (step R C) N) (js.foldl (step M D) L) := by
  induction js with
  | nil => intro N' N L h; exact h
  | cons j js ih =>
    intro N' N L h
    simp only [List.foldl_cons]
    apply ih
    refine ⟨h.1, h.2.1, fun nr => ?_⟩
    rw [h.1, h.2.1]
    simp only [ofFn_get']
    by_cases hi : InR N.shape nr
    · simp only [hi, if_true]
      by_cases hj : (idxs.getD (nr.getD 0 0) []).getD i 0 = j
      · simp only [hj, if_true]
        exact Near.sum _ fun t _ => (hR.2.2 _).mul hp hq (hC.2.2 _)
      · simp only [hj, if_false]; exact h.2.2 _
    · simp only [hi, if_false]; constructor <;> simp

theorem gatherStep_near {p q : ℝ} (hp : 1 ≤ p) (hq : 1 ≤ q) (idxs : List (List ℕ)) (i : ℕ)
    {R' R M C' C D : ND ℝ} (hR : NDNear p R' R M) (hC : NDNear q C' C D) :
    NDNear (p * q) (TT.gatherStep idxs R' (C', i)) (TT.gatherStep idxs R (C, i))
      (TT.gatherStep idxs M (D, i)) := by
  unfold TT.gatherStep
  simp only [hC.dim_eq, hC.dim_eq', hR.dim_eq, hR.dim_eq']
  exact gatherStep_fold_near hp hq idxs i _ hR hC _
    (NDNear.zeros _ (one_le_mul_of_one_le_of_one_le hp hq))

/-- Absolute values of an approximation, seen as an approximation of its bound: only the size
matters. -/
theorem gatherStep_abs {p q : ℝ} (hp : 1 ≤ p) (hq : 1 ≤ q) (idxs : List (List ℕ)) (i : ℕ)
    {R' R M C' C D : ND ℝ} (hR : NDNear p R' R M) (hC : NDNear q C' C D) (nr : List ℕ) :
    (TT.gatherStep idxs R'.abs (C'.abs, i)).get nr ≤ p * q * (TT.gatherStep idxs M (D, i)).get nr := by
  have e1 : ∀ k, C'.abs.dim k = C.dim k := hC.dim_eq
  have e2 : ∀ k, R'.abs.dim k = R.dim k := hR.dim_eq
  unfold TT.gatherStep
  simp only [e1, e2, hC.dim_eq', hR.dim_eq']
  generalize R.dim 1 = n
  suffices H : ∀ (js : List ℕ) (N L : ND ℝ), N.shape = L.shape → (∀ nr, N.get nr ≤ p * q * L.get nr) →
      ∀ nr, (js.foldl (fun next j => ND.ofFn next.shape fun nr =>
        if (idxs.getD (nr.getD 0 0) []).getD i 0 = j then
          ∑ t ∈ range n, R'.abs.get [nr.getD 0 0, t] * C'.abs.get [t, j, nr.getD 1 0]
        else next.get nr) N).get nr ≤ p * q * (js.foldl (fun next j => ND.ofFn next.shape fun nr =>
        if (idxs.getD (nr.getD 0 0) []).getD i 0 = j then
          ∑ t ∈ range n, M.get [nr.getD 0 0, t] * D.get [t, j, nr.getD 1 0]
        else next.get nr) L).get nr from
    H _ _ _ rfl (fun nr => by simp) nr
  intro js
  induction js with
  | nil => intro N L _ h; exact h
  | cons j js ih =>
    intro N L hs h
    simp only [List.foldl_cons]
    refine ih (ofFn N.shape _) (ofFn L.shape _) hs ?_
    intro nr
    rw [hs]
    simp only [ofFn_get']
    by_cases hi : InR L.shape nr
    · simp only [hi, if_true]
      by_cases hj : (idxs.getD (nr.getD 0 0) []).getD i 0 = j
      · simp only [hj, if_true]
        rw [Finset.mul_sum]
        refine Finset.sum_le_sum fun t _ => ?_
        rw [abs_get, abs_get, ← abs_mul]
        exact ((hR.2.2 _).mul hp hq (hC.2.2 _)).abs_le
      · simp only [hj, if_false]; exact h _
    · simp only [hi, if_false]; simp

theorem gather_fold_near {u : ℝ} (hu : 0 ≤ u) (idxs : List (List ℕ)) : ∀ (Cs : List (ND ℝ))
    {R' R M R'' : ND ℝ} {q r N k : ℕ}, TTChain q Cs r → R.shape = [idxs.length, q] →
    NDNear ((1 + u) ^ N) R' R M → flFold (TT.FlGatherStep u idxs) R' (Cs.zipIdx k) R'' →
    NDNear ((1 + u) ^ (N + (Cs.map fun C => C.dim 0).sum)) R''
      ((Cs.zipIdx k).foldl (TT.gatherStep idxs) R)
      (((Cs.map ND.abs).zipIdx k).foldl (TT.gatherStep idxs) M)
  | [], R', R, M, R'', q, r, N, k, _, _, h, hf => by cases hf; simpa using h
  | C :: Cs, R', R, M, R'', q, r, N, k, ⟨n, t, hC, hch⟩, hR, h, hf => by
    rw [List.zipIdx_cons] at hf
    obtain ⟨R1, h1, hf⟩ := hf
    unfold TT.FlGatherStep at h1
    rw [h.dim_eq] at h1
    have hd : R.dim 1 = q := by simp [ND.dim, hR]
    have hd0 : C.dim 0 = q := by simp [ND.dim, hC]
    rw [hd] at h1
    have k1 := NDNear.op hu h1 (gatherStep_near (one_le_pow_u hu N) le_rfl idxs k h (NDNear.rfl' C))
      (gatherStep_abs (one_le_pow_u hu N) le_rfl idxs k h (NDNear.rfl' C))
    rw [pow_mul_comb] at k1
    have hs : (TT.gatherStep idxs R (C, k)).shape = [idxs.length, t] := by
      have : ∀ (js : List ℕ) (A : ND ℝ), (js.foldl (fun next j => ND.ofFn next.shape fun nr =>
        if (idxs.getD (nr.getD 0 0) []).getD k 0 = j then
          ∑ t ∈ range (R.dim 1), R.get [nr.getD 0 0, t] * C.get [t, j, nr.getD 1 0]
        else next.get nr) A).shape = A.shape := by
        intro js
        induction js with
        | nil => intro A; rfl
        | cons j js ih => intro A; rw [List.foldl_cons, ih]; rfl
      refine (this _ _).trans ?_
      simp [ND.dim, hC]
    have := gather_fold_near hu idxs Cs hch hs k1 hf
    rw [List.map_cons, List.sum_cons, hd0, ← Nat.add_assoc]
    exact this

theorem TT.gather_near {u : ℝ} (hu : 0 ≤ u) {X : TT ℝ} (h : X.Valid) {idxs : List (List ℕ)}
    {vs : List ℝ} (hv : X.FlGather u idxs vs) :
    NearL ((1 + u) ^ X.rank.sum) vs (X.gather idxs) (X.abs.gather idxs) := by
  obtain ⟨cores⟩ := X
  obtain ⟨hne, hch⟩ := h
  match cores, hne, hch with
  | C :: Cs, _, ⟨n, t, hC, hCs⟩ =>
    obtain ⟨res, hres, rfl⟩ := hv
    have h0 := ((NDNear.rfl' C).reshape C.shape.tail).reindex
      [idxs.length, (C.reshape C.shape.tail).dim 1]
      fun nr => [(idxs.getD (nr.getD 0 0) []).getD 0 0, nr.getD 1 0]
    have hd : (C.reshape C.shape.tail).dim 1 = t := by simp [ND.dim, hC]
    rw [← pow_zero (1 + u)] at h0
    have h1 := gather_fold_near hu idxs Cs hCs (by rw [hd]; rfl) h0 hres
    rw [Nat.zero_add] at h1
    have h2 := h1.reshape [res.shape.prod]
    show NearL _ _ ((List.range (ND.reshape _ _).size).map _) ((List.range (ND.reshape _ _).size).map _)
    have e1 := h1.1
    have e2 := h1.2.1
    simp only [ND.size, ND.reshape_shape, List.prod_cons, List.prod_nil, mul_one]
    have e3 : ((((Cs.map ND.abs).zipIdx 1).foldl (TT.gatherStep idxs) (ND.ofFn [idxs.length,
        (C.abs.reshape C.abs.shape.tail).dim 1] fun nr =>
          (C.abs.reshape C.abs.shape.tail).get [(idxs.getD (nr.getD 0 0) []).getD 0 0, nr.getD 1 0]))).shape
        = res.shape := e2.trans e1.symm
    rw [e3, ← e1]
    exact NearL.map _ fun i _ => h2.2.2 _

theorem cp_gather_fold_near {u : ℝ} (hu : 0 ≤ u) (r : ℕ) : ∀ (Cs : List (ND ℝ)) (i : List ℕ)
    {a' a b a'' : ℝ} {N : ℕ}, Near ((1 + u) ^ N) a' a b →
    flFold (fun a (p : ND ℝ × ℕ) a' => ∃ δ, |δ| ≤ u ∧ a' = a * p.1.get [p.2, r] * (1 + δ)) a'
      (Cs.zip i) a'' →
    Near ((1 + u) ^ (N + Cs.length)) a''
      ((Cs.zip i).foldl (fun res p => res * p.1.get [p.2, r]) a)
      (((Cs.map ND.abs).zip i).foldl (fun res p => res * p.1.get [p.2, r]) b)
  | [], i, a', a, b, a'', N, h, hf => by
    cases hf; simpa using h
  | C :: Cs, [], a', a, b, a'', N, h, hf => by
    cases hf
    exact h.mono (pow_le_pow_right₀ (by linarith) (Nat.le_add_right _ _))
  | C :: Cs, j :: i, a', a, b, a'', N, h, hf => by
    rw [List.zip_cons_cons] at hf
    obtain ⟨a1, ⟨δ, hδ, rfl⟩, hf⟩ := hf
    have hc : Near 1 (C.get [j, r]) (C.get [j, r]) (C.abs.get [j, r]) := by
      rw [abs_get]; exact Near.rfl' _
    have k := (h.mul (one_le_pow_u hu N) le_rfl hc).round (by
      rw [mul_one]; exact one_le_pow_u hu N) hδ
    rw [mul_one, ← pow_succ'] at k
    have := cp_gather_fold_near hu r Cs i k hf
    rw [List.length_cons, show N + (Cs.length + 1) = N + 1 + Cs.length by omega]
    exact this

theorem CP.gather_near {u : ℝ} (hu : 0 ≤ u) {X : CP ℝ} {idxs : List (List ℕ)}
    {vs : List ℝ} (hv : X.FlGather u idxs vs) :
    NearL ((1 + u) ^ (X.cores.length + (X.rank - 1))) vs (X.gather idxs) (X.abs.gather idxs) := by
  unfold CP.FlGather at hv
  induction hv with
  | nil => exact .nil
  | @cons i v is vs h _ ih =>
    refine .cons ?_ ih
    obtain ⟨res, hres, hk⟩ := h
    have h1 : ∀ r, Near ((1 + u) ^ X.cores.length) (res r)
        ((X.cores.zip i).foldl (fun res p => res * p.1.get [p.2, r]) 1)
        (((X.cores.map ND.abs).zip i).foldl (fun res p => res * p.1.get [p.2, r]) 1) := by
      intro r
      have h0 : Near ((1 + u) ^ 0) (1 : ℝ) 1 1 := by simp [Near]
      simpa using cp_gather_fold_near hu r X.cores i h0 (hres r)
    have h2 := FlVal.near_le hu hk
    have h3 := Near.sum (range X.rank) fun r _ => h1 r
    have h4 := h3.trans h2.1 (one_le_pow_u hu _) (by
      rw [Finset.mul_sum]
      exact Finset.sum_le_sum fun r _ => (h1 r).abs_le)
    rw [← pow_add, Nat.add_comm] at h4
    rw [CP.abs_rank]
    exact h4

theorem Sparse.gather_near (X : Sparse ℝ) (idxs : List (List ℕ)) :
    NearL 1 (X.gather idxs) (X.gather idxs) (X.abs.gather idxs) := by
  refine NearL.map _ fun i _ => ?_
  suffices H : ∀ (es : List (List ℕ × ℝ)) (d e : ℕ → Option ℝ),
      (∀ n, e n = (d n).map fun x => |x|) → ∀ n,
      (es.map fun e => (e.1, |e.2|)).foldl (fun d e => Function.update d (ravel X.shape e.1) (some e.2)) e n
        = (es.foldl (fun d e => Function.update d (ravel X.shape e.1) (some e.2)) d n).map fun x => |x| by
    have := H X.entries (fun _ => none) (fun _ => none) (fun _ => rfl) (ravel X.shape i)
    have e : X.abs.dict (ravel X.abs.shape i) = (X.dict (ravel X.shape i)).map fun x => |x| := this
    show Near 1 ((X.dict (ravel X.shape i)).getD 0) ((X.dict (ravel X.shape i)).getD 0)
      ((X.abs.dict (ravel X.abs.shape i)).getD 0)
    rw [e]
    cases X.dict (ravel X.shape i) with
    | none => constructor <;> simp
    | some x => exact Near.rfl' x
  intro es
  induction es with
  | nil => intro d e h n; exact h n
  | cons f es ih =>
    intro d e h n
    simp only [List.map_cons, List.foldl_cons]
    apply ih
    intro m
    by_cases hm : m = ravel X.shape f.1
    · subst hm; simp
    · simp [Function.update_of_ne hm, h]

/-- `gather` of any format. -/
theorem Leaf.gather_near {u : ℝ} (hu : 0 ≤ u) {X : Leaf ℝ} (h : X.Valid)
    {G : List (List ℕ) → List ℝ → Prop} (hG : X.FlGather u = some G) :
    ∃ g ga, X.gather? = some g ∧ X.abs.gather? = some ga ∧
      ∀ idxs vs, G idxs vs → NearL ((1 + u) ^ X.gatherRounds) vs (g idxs) (ga idxs) := by
  cases X with
  | dense X => cases hG
  | tucker X => cases hG
  | sparse X =>
    cases hG
    refine ⟨_, _, rfl, rfl, ?_⟩
    rintro idxs vs rfl
    rw [show (Leaf.sparse X).gatherRounds = 0 from rfl, pow_zero]
    exact Sparse.gather_near X idxs
  | tt X =>
    cases hG
    exact ⟨_, _, rfl, rfl, fun idxs vs hv => TT.gather_near hu h hv⟩
  | cp X =>
    cases hG
    exact ⟨_, _, rfl, rfl, fun idxs vs hv => CP.gather_near hu hv⟩

/-! ### dot -/

theorem tt_dot_fold_near {u : ℝ} (hu : 0 ≤ u) : ∀ (As Bs : List (ND ℝ)) {R' R M R'' : ND ℝ}
    {q r q' r' N : ℕ}, TTChain q As r → TTChain q' Bs r' → As.length = Bs.length → R.shape = [q, q'] →
    NDNear ((1 + u) ^ N) R' R M →
    flFold (fun R (p : ND ℝ × ND ℝ) R' => FlEinsum u [([.i, .j], R), ([.i, .k, .a], p.1),
      ([.j, .k, .b], p.2)] [.a, .b] R') R' (As.zip Bs) R'' →
    NDNear ((1 + u) ^ (N + (List.zipWith (fun n rs => rs.1 * rs.2 * n + 1) (As.map fun C => C.dim 1)
      ((As.map fun C => C.dim 0).zip (Bs.map fun C => C.dim 0))).sum)) R''
      ((As.zip Bs).foldl (fun R p => ND.es_ij_ika_jkb_ab R p.1 p.2) R)
      (((As.map ND.abs).zip (Bs.map ND.abs)).foldl (fun R p => ND.es_ij_ika_jkb_ab R p.1 p.2) M) ∧
    ((As.zip Bs).foldl (fun R p => ND.es_ij_ika_jkb_ab R p.1 p.2) R).shape = [r, r']
  | [], [], R', R, M, R'', q, r, q', r', N, hA, hB, _, hR, h, hf => by
    cases hf; cases hA; cases hB; simpa using ⟨h, hR⟩
  | [], _ :: _, _, _, _, _, _, _, _, _, _, _, _, hl, _, _, _ => by simp at hl
  | _ :: _, [], _, _, _, _, _, _, _, _, _, _, _, hl, _, _, _ => by simp at hl
  | A :: As, B :: Bs, R', R, M, R'', q, r, q', r', N, ⟨n, t, hA, hAs⟩, ⟨n', t', hB, hBs⟩, hl, hR, h, hf => by
    rw [List.zip_cons_cons] at hf
    obtain ⟨R1, h1, hf⟩ := hf
    have k1 := NDNear.einsum3 hu (one_le_pow_u hu N) le_rfl le_rfl h (NDNear.rfl' A) (NDNear.rfl' B)
      _ _ _ _ h1
    have e : einsumTerms [([Lb.i, Lb.j], R), ([Lb.i, Lb.k, Lb.a], A), ([Lb.j, Lb.k, Lb.b], B)]
        [Lb.a, Lb.b] = q * q' * n := by
      simp only [einsumTerms, List.flatMap_cons, List.flatMap_nil, List.map_cons, List.map_nil, hR, hA, hB]
      simp [lbSummed, lbDim, lbGet?]
      try ring
    rw [e, mul_one, pow_mul_comb] at k1
    have hR1 : (ND.es_ij_ika_jkb_ab R A B).shape = [t, t'] := ND.es_ij_ika_jkb_ab_shape hR hA hB
    have := tt_dot_fold_near hu As Bs hAs hBs (by simpa using hl) hR1 k1 hf
    refine ⟨?_, this.2⟩
    have hd0 : A.dim 0 = q := by simp [ND.dim, hA]
    have hd1 : A.dim 1 = n := by simp [ND.dim, hA]
    have hd2 : B.dim 0 = q' := by simp [ND.dim, hB]
    simp only [List.map_cons, List.zip_cons_cons, List.zipWith_cons_cons, List.sum_cons, hd0, hd1, hd2]
    rw [← Nat.add_assoc]
    exact this.1

theorem TT.dot_near {u : ℝ} (hu : 0 ≤ u) {X Y : TT ℝ} (hX : X.Valid) (hY : Y.Valid)
    (hs : X.shape = Y.shape) {v : ℝ} (hv : X.FlDot u Y v) :
    Near ((1 + u) ^ X.dotRounds Y) v (X.dot Y) (X.abs.dot Y.abs) := by
  obtain ⟨As⟩ := X
  obtain ⟨Bs⟩ := Y
  obtain ⟨hneA, hchA⟩ := hX
  obtain ⟨hneB, hchB⟩ := hY
  match As, Bs, hneA, hneB, hchA, hchB with
  | A :: As, B :: Bs, _, _, ⟨n, t, hA, hAs⟩, ⟨n', t', hB, hBs⟩ =>
    obtain ⟨init, res, h0, h1, h2⟩ := hv
    have k0 := NDNear.einsum2 hu le_rfl le_rfl (NDNear.rfl' A) (NDNear.rfl' B) _ _ _ h0
    have e : einsumTerms [([Lb.i, Lb.j, Lb.k], A), ([Lb.l, Lb.j, Lb.m], B)] [Lb.k, Lb.m] = n := by
      simp only [einsumTerms, List.flatMap_cons, List.flatMap_nil, List.map_cons, List.map_nil, hA, hB]
      simp [lbSummed, lbDim, lbGet?]
    rw [e, mul_one, mul_one] at k0
    have hl : As.length = Bs.length := by
      have := congrArg List.length hs
      simpa [TT.shape] using this
    have hR : (ND.es_ijk_ljm_km A B).shape = [t, t'] := ND.es_ijk_ljm_km_shape hA hB
    obtain ⟨k1, k2⟩ := tt_dot_fold_near hu As Bs hAs hBs hl hR k0 h1
    have k3 := k1.total hu h2
    rw [k2] at k3
    simp only [List.prod_cons, List.prod_nil, mul_one, Nat.sub_self, pow_zero, one_mul] at k3
    have ed : TT.dotRounds ⟨A :: As⟩ ⟨B :: Bs⟩ = n + (List.zipWith (fun n rs => rs.1 * rs.2 * n + 1)
        (As.map fun C => C.dim 1) ((As.map fun C => C.dim 0).zip (Bs.map fun C => C.dim 0))).sum := by
      have hd1 : A.dim 1 = n := by simp [ND.dim, hA]
      simp [TT.dotRounds, TT.shape, TT.rank, hd1]
    rw [ed]
    exact k3

theorem vdot_denseDot (A B : ND ℝ) (n : ℕ) :
    Leaf.vdot ((List.range n).map fun k => A.get [k]) ((List.range n).map fun k => B.get [k])
      = ∑ k ∈ range n, A.get [k] * B.get [k] := by
  unfold Leaf.vdot
  rw [List.zipWith_map_left, List.zipWith_map_right, List.zipWith_self]
  induction n with
  | zero => simp
  | succ n ih => rw [List.range_succ, List.map_append, List.sum_append, ih, Finset.sum_range_succ]; simp

theorem Leaf.denseDot_near {u : ℝ} (hu : 0 ≤ u) {X Y : Leaf ℝ} (hX : X.Valid) (hY : Y.Valid)
    (hs : X.shape = Y.shape) {v : ℝ} (hv : X.FlDenseDot u Y v) :
    Near ((1 + u) ^ (X.denseRounds + Y.denseRounds + X.shape.prod)) v (X.denseDot Y)
      (X.abs.denseDot Y.abs) := by
  obtain ⟨A, B, hA, hB, hv⟩ := hv
  have h1 := Leaf.toNumpy_near hu hX hA
  have h2 := Leaf.toNumpy_near hu hY hB
  have sX : X.toNumpy.shape = X.shape := Leaf.toNumpy_shape hX
  have sY : Y.toNumpy.shape = X.shape := (Leaf.toNumpy_shape hY).trans hs.symm
  have n1 := h1.reshape [A.shape.prod]
  have n2 := h2.reshape [B.shape.prod]
  have hn : A.shape.prod = X.shape.prod := by rw [h1.1, sX]
  have hm : B.shape.prod = X.shape.prod := by rw [h2.1, sY]
  rw [hn] at n1 hv
  rw [hm] at n2 hv
  have l1 := NearL.map (List.range X.shape.prod) fun k _ => n1.2.2 [k]
  have l2 := NearL.map (List.range X.shape.prod) fun k _ => n2.2.2 [k]
  have := FlVdot.near hu (one_le_pow_u hu _) (one_le_pow_u hu _) l1 l2 hv
  rw [vdot_denseDot, vdot_denseDot, List.length_map, List.length_range, ← pow_add, ← pow_add,
    Nat.add_comm] at this
  unfold Leaf.denseDot
  rw [h1.2.1, h2.2.1, sX, sY]
  exact this

theorem vdot_comm (x y : List ℝ) : Leaf.vdot x y = Leaf.vdot y x := by
  unfold Leaf.vdot
  rw [List.zipWith_comm]
  congr 1
  congr 1
  funext a b
  exact mul_comm _ _

theorem sparse_dot_near {u : ℝ} (hu : 0 ≤ u) {S : Sparse ℝ} {Y : Leaf ℝ} (hY : Y.Valid)
    {G : List (List ℕ) → List ℝ → Prop} (hG : Y.FlGather u = some G) {g ga : List (List ℕ) → List ℝ}
    (hg : Y.gather? = some g) (hga : Y.abs.gather? = some ga) {w : List ℝ} {v : ℝ}
    (hw : G (S.entries.map Prod.fst) w) (hv : FlVdot u w (S.entries.map Prod.snd) v)
    (hlen : (g (S.entries.map Prod.fst)).length = S.nnz) :
    Near ((1 + u) ^ (Y.gatherRounds + S.nnz)) v
      (Leaf.vdot (g (S.entries.map Prod.fst)) (S.entries.map Prod.snd))
      (Leaf.vdot (ga (S.abs.entries.map Prod.fst)) (S.abs.entries.map Prod.snd)) := by
  obtain ⟨g', ga', e1, e2, h⟩ := Leaf.gather_near hu hY hG
  rw [hg] at e1; rw [hga] at e2
  cases e1; cases e2
  have h1 := h _ _ hw
  have h2 : NearL 1 (S.entries.map Prod.snd) (S.entries.map Prod.snd) (S.abs.entries.map Prod.snd) := by
    have : S.abs.entries.map Prod.snd = S.entries.map fun e => |e.2| := by
      simp [Sparse.abs, List.map_map, Function.comp_def]
    rw [this]
    exact NearL.map _ fun e _ => Near.rfl' _
  have e3 : S.abs.entries.map Prod.fst = S.entries.map Prod.fst := by
    simp [Sparse.abs, List.map_map, Function.comp_def]
  have := FlVdot.near hu (one_le_pow_u hu _) le_rfl h1 h2 hv
  rw [hlen, pow_mul_comb] at this
  rw [e3]
  exact this

/-- `dot` of two tensors of the same shape. -/
theorem Leaf.dot_near {u : ℝ} (hu : 0 ≤ u) {X Y : Leaf ℝ} (hX : X.Valid) (hY : Y.Valid)
    (dX : X.Distinct) (dY : Y.Distinct) (hs : X.shape = Y.shape) {v : ℝ} (hv : X.FlDot u Y v) :
    Near ((1 + u) ^ X.dotRounds Y) v (innerND X.toNumpy Y.toNumpy)
      (innerND X.abs.toNumpy Y.abs.toNumpy) := by
  have hsa : X.abs.shape = Y.abs.shape := by rw [Leaf.abs_shape, Leaf.abs_shape, hs]
  have hsp : ∀ (Z W : Leaf ℝ), Z.Valid → W.Valid → Z.shape = W.shape → Z.toNumpy.shape = W.toNumpy.shape :=
    fun Z W hZ hW h => by rw [Leaf.toNumpy_shape hZ, Leaf.toNumpy_shape hW, h]
  have hrev : ∀ {v}, Y.FlDenseDot u X v →
      Near ((1 + u) ^ (X.denseRounds + Y.denseRounds + X.shape.prod)) v (innerND X.toNumpy Y.toNumpy)
        (innerND X.abs.toNumpy Y.abs.toNumpy) := by
    intro v hv
    have := Leaf.denseDot_near hu hY hX hs.symm hv
    rw [Leaf.denseDot_eq (hsp Y X hY hX hs.symm), Leaf.denseDot_eq (hsp _ _ (Leaf.abs_valid hY)
      (Leaf.abs_valid hX) hsa.symm), innerND_comm (hsp Y X hY hX hs.symm), innerND_comm (hsp _ _ (Leaf.abs_valid hY)
      (Leaf.abs_valid hX) hsa.symm), ← hs, Nat.add_comm Y.denseRounds] at this
    exact this
  have hdot := Leaf.dot_eq hX hY dX dY hs
  have hdota := Leaf.dot_eq (Leaf.abs_valid hX) (Leaf.abs_valid hY) (Leaf.abs_distinct dX)
    (Leaf.abs_distinct dY) hsa
  cases X with
  | dense A => cases Y <;> exact hrev hv
  | tucker A => cases Y <;> exact hrev hv
  | cp A =>
    cases Y with
    | sparse S =>
      obtain ⟨w, hw, hv⟩ := hv
      have := sparse_dot_near hu hX rfl rfl rfl hw hv (by simp [CP.gather, Sparse.nnz])
      rw [← hdot, ← hdota]
      exact this
    | _ => exact hrev hv
  | tt A =>
    cases Y with
    | tt B =>
      rw [← hdot, ← hdota]
      exact TT.dot_near hu hX hY hs hv
    | sparse S =>
      obtain ⟨w, hw, hv⟩ := hv
      have := sparse_dot_near hu hX rfl rfl rfl hw hv (by
        rw [TT.gather_eq hX _ (by
          intro i hi
          obtain ⟨e, he, rfl⟩ := List.mem_map.1 hi
          have := hY e he
          exact (congrArg (fun s => InR s e.1) hs).mpr this)]
        simp [Sparse.nnz])
      rw [← hdot, ← hdota]
      exact this
    | _ => exact hrev hv
  | sparse S =>
    cases Y with
    | dense B => exact hrev hv
    | tucker B => exact hrev hv
    | sparse B =>
      obtain ⟨w, hw, hv⟩ := hv
      have := sparse_dot_near hu hY rfl rfl rfl hw hv (by simp [Sparse.gather, Sparse.nnz])
      rw [show (Leaf.sparse B).gatherRounds = 0 from rfl, Nat.zero_add] at this
      rw [← hdot, ← hdota]
      exact this
    | cp B =>
      obtain ⟨w, hw, hv⟩ := hv
      have := sparse_dot_near hu hY rfl rfl rfl hw hv (by simp [CP.gather, Sparse.nnz])
      rw [← hdot, ← hdota]
      exact this
    | tt B =>
      obtain ⟨w, hw, hv⟩ := hv
      have := sparse_dot_near hu hY rfl rfl rfl hw hv (by
        rw [TT.gather_eq hY _ (by
          intro i hi
          obtain ⟨e, he, rfl⟩ := List.mem_map.1 hi
          have := hX e he
          exact (congrArg (fun s => InR s e.1) hs).mp this)]
        simp [Sparse.nnz])
      rw [← hdot, ← hdota]
      exact this

/-- python's `sum` of approximate summands. -/
theorem flSum_near {α : Type*} {u : ℝ} (hu : 0 ≤ u) {f : α → ℝ → Prop} {N : ℕ} {g h : α → ℝ} :
    ∀ (xs : List α), (∀ x ∈ xs, ∀ w, f x w → Near ((1 + u) ^ N) w (g x) (h x)) → ∀ {s' s a v : ℝ} {k : ℕ},
    Near ((1 + u) ^ (N + k)) s' s a →
    flFold (fun s x s' => ∃ w δ, f x w ∧ |δ| ≤ u ∧ s' = (s + w) * (1 + δ)) s' xs v →
    Near ((1 + u) ^ (N + (k + xs.length))) v ((xs.map g).foldl (· + ·) s) ((xs.map h).foldl (· + ·) a)
  | [], _, s', s, a, v, k, h0, hf => by cases hf; simpa using h0
  | x :: xs, H, s', s, a, v, k, h0, hf => by
    obtain ⟨s1, ⟨w, δ, hw, hδ, rfl⟩, hf⟩ := hf
    have k1 := (H x (by simp) w hw).mono (pow_le_pow_right₀ (by linarith) (Nat.le_add_right N k))
    have k2 := (h0.add k1).round (one_le_pow_u hu _) hδ
    rw [← pow_succ', Nat.add_assoc] at k2
    have := flSum_near hu xs (fun y hy => H y (by simp [hy])) k2 hf
    rw [List.length_cons, show k + (xs.length + 1) = k + 1 + xs.length by omega]
    exact this

theorem flSum_near' {α : Type*} {u : ℝ} (hu : 0 ≤ u) {f : α → ℝ → Prop} {N : ℕ} {g h : α → ℝ} {xs : List α}
    (H : ∀ x ∈ xs, ∀ w, f x w → Near ((1 + u) ^ N) w (g x) (h x)) {v : ℝ} (hv : flSum u f xs v) :
    Near ((1 + u) ^ (N + xs.length)) v (xs.map g).sum (xs.map h).sum := by
  have h0 : Near ((1 + u) ^ (N + 0)) (0 : ℝ) 0 0 := by simp [Near]
  have := flSum_near hu xs H h0 hv
  rw [foldl_add_sum, foldl_add_sum, zero_add, _root_.zero_add, _root_.zero_add] at this
  exact this

theorem TSum.abs_valid {X : TSum ℝ} (h : X.Valid) : X.abs.Valid := by
  intro t ht
  obtain ⟨s, hs, rfl⟩ := List.mem_map.1 ht
  exact ⟨Leaf.abs_valid (h s hs).1, (Leaf.abs_shape s).trans (h s hs).2⟩

theorem Tensor.abs_valid {X : Tensor ℝ} (h : X.Valid) : X.abs.Valid := by
  cases X with
  | leaf X => exact Leaf.abs_valid h
  | sum X => exact TSum.abs_valid h

theorem Tensor.abs_distinct {X : Tensor ℝ} (h : X.Distinct) : X.abs.Distinct := by
  cases X with
  | leaf X => exact Leaf.abs_distinct h
  | sum X =>
    intro t ht
    obtain ⟨s, hs, rfl⟩ := List.mem_map.1 ht
    exact Leaf.abs_distinct (h s hs)

theorem Tensor.abs_shape (X : Tensor ℝ) : X.abs.shape = X.shape := by
  cases X with
  | leaf X => exact Leaf.abs_shape X
  | sum X => rfl

/-- a lazy sum dotted with a leaf, summand by summand -/
theorem dotSum_near {u : ℝ} (hu : 0 ≤ u) {X : Leaf ℝ} {Y : TSum ℝ} (hX : X.Valid) (hY : Y.Valid)
    (dX : X.Distinct) (dY : (Tensor.sum Y).Distinct) (hs : X.shape = Y.shape) {v : ℝ}
    (hv : flSum u (fun t : Leaf ℝ => t.FlDot u X) Y.tensors v) :
    Near ((1 + u) ^ ((Y.tensors.map fun t => t.dotRounds X).foldr max 0 + Y.tensors.length)) v
      (innerND Y.toNumpy X.toNumpy) (innerND Y.abs.toNumpy X.abs.toNumpy) := by
  have := flSum_near' hu (g := fun t : Leaf ℝ => innerND t.toNumpy X.toNumpy)
    (h := fun t : Leaf ℝ => innerND t.abs.toNumpy X.abs.toNumpy) (fun t ht w hw =>
      (Leaf.dot_near hu (hY t ht).1 hX (dY t ht) dX ((hY t ht).2.trans hs.symm) hw).mono
        (pow_le_pow_right₀ (by linarith) (le_foldr_max (List.mem_map_of_mem ht)))) hv
  rw [TSum.inner_left hY, TSum.inner_left (TSum.abs_valid hY)]
  have e : (Y.abs.tensors.map fun t => innerND t.toNumpy X.abs.toNumpy)
      = Y.tensors.map fun t => innerND t.abs.toNumpy X.abs.toNumpy := by
    simp [TSum.abs, List.map_map, Function.comp_def]
  rw [e]
  exact this

/-- `dot` of leaves and lazy sums. -/
theorem Tensor.dot_near {u : ℝ} (hu : 0 ≤ u) {X Y : Tensor ℝ} (hX : X.Valid) (hY : Y.Valid)
    (dX : X.Distinct) (dY : Y.Distinct) (hs : X.shape = Y.shape) {v : ℝ} (hv : X.FlDot u Y v) :
    Near ((1 + u) ^ X.dotRounds Y) v (innerND X.toNumpy Y.toNumpy)
      (innerND X.abs.toNumpy Y.abs.toNumpy) := by
  have hsn : X.toNumpy.shape = Y.toNumpy.shape := by
    rw [Tensor.toNumpy_shape hX, Tensor.toNumpy_shape hY, hs]
  have hsna : X.abs.toNumpy.shape = Y.abs.toNumpy.shape := by
    rw [Tensor.toNumpy_shape (Tensor.abs_valid hX), Tensor.toNumpy_shape (Tensor.abs_valid hY),
      Tensor.abs_shape, Tensor.abs_shape, hs]
  cases X with
  | leaf X =>
    cases Y with
    | leaf Y => exact Leaf.dot_near hu hX hY dX dY hs hv
    | sum Y =>
      rw [innerND_comm hsn, innerND_comm hsna]
      exact dotSum_near hu hX hY dX dY hs hv
  | sum X =>
    cases Y with
    | leaf Y => exact dotSum_near hu hY hX dY dX hs.symm hv
    | sum Y =>
      have := flSum_near' hu (g := fun t : Leaf ℝ => innerND t.toNumpy Y.toNumpy)
        (h := fun t : Leaf ℝ => innerND t.abs.toNumpy Y.abs.toNumpy)
        (N := (X.tensors.map fun t => (Y.tensors.map fun s => s.dotRounds t).foldr max 0
          + Y.tensors.length).foldr max 0) (fun t ht w hw => by
          have hst : t.shape = Y.shape := (hX t ht).2.trans hs
          have k := dotSum_near hu (hX t ht).1 hY (dX t ht) dY hst hw
          rw [innerND_comm (A := Y.toNumpy) (by rw [TSum.toNumpy_shape hY, Leaf.toNumpy_shape (hX t ht).1, hst]),
            innerND_comm (A := Y.abs.toNumpy) (by
              rw [TSum.toNumpy_shape (TSum.abs_valid hY), Leaf.toNumpy_shape (Leaf.abs_valid (hX t ht).1),
                Leaf.abs_shape, hst]; rfl)] at k
          exact k.mono (pow_le_pow_right₀ (by linarith) (le_foldr_max (List.mem_map.2 ⟨t, ht, rfl⟩)))) hv
      show Near _ v (innerND X.toNumpy Y.toNumpy) (innerND X.abs.toNumpy Y.abs.toNumpy)
      rw [TSum.inner_left hX, TSum.inner_left (TSum.abs_valid hX)]
      have e : (X.abs.tensors.map fun t => innerND t.toNumpy Y.abs.toNumpy)
          = X.tensors.map fun t => innerND t.abs.toNumpy Y.abs.toNumpy := by
        simp [TSum.abs, List.map_map, Function.comp_def]
      rw [e]
      exact this

end TTS
