import Verif.Proofs.TensorTT

/-! Proofs about Tucker and sparse tensors, and the entries of every format. -/

namespace TTS

open Finset

variable {K : Type*}

section
variable [CommSemiring K]

/-! ### Tucker -/

theorem facProd_length1 : ∀ (Us : List (ND K)) (q i : List ℕ), q.length ≠ Us.length →
    facProd Us q i = 0
  | [], [], _, h => absurd rfl h
  | [], _ :: _, [], _ => rfl
  | [], _ :: _, _ :: _, _ => rfl
  | _ :: _, [], [], _ => rfl
  | _ :: _, [], _ :: _, _ => rfl
  | _ :: _, _ :: _, [], _ => rfl
  | U :: Us, q :: qs, i :: is, h => by
    rw [facProd, facProd_length1 Us qs is (by simpa using h), mul_zero]

theorem facProd_length2 : ∀ (Us : List (ND K)) (q i : List ℕ), i.length ≠ Us.length →
    facProd Us q i = 0
  | [], [], [], h => absurd rfl h
  | [], [], _ :: _, _ => rfl
  | [], _ :: _, [], _ => rfl
  | [], _ :: _, _ :: _, _ => rfl
  | _ :: _, [], [], _ => rfl
  | _ :: _, [], _ :: _, _ => rfl
  | _ :: _, _ :: _, [], _ => rfl
  | U :: Us, q :: qs, i :: is, h => by
    rw [facProd, facProd_length2 Us qs is (by simpa using h), mul_zero]

theorem facProd_append : ∀ (As Bs : List (ND K)) (q q' p p' : List ℕ), q.length = As.length →
    p.length = As.length →
    facProd (As ++ Bs) (q ++ q') (p ++ p') = facProd As q p * facProd Bs q' p'
  | [], _, [], _, [], _, _, _ => by simp [facProd]
  | C :: As, Bs, x :: q, q', i :: p, p', h, h' => by
    simp only [List.cons_append, facProd]
    rw [facProd_append As Bs q q' p p' (by simpa using h) (by simpa using h'), mul_assoc]
  | [], _, _ :: _, _, _, _, h, _ => by simp at h
  | [], _, _, _, _ :: _, _, _, h => by simp at h
  | _ :: _, _, [], _, _, _, h, _ => by simp at h
  | _ :: _, _, _ :: _, _, [], _, _, h => by simp at h

theorem facProd_reverse : ∀ (As : List (ND K)) (q p : List ℕ),
    facProd As.reverse q.reverse p.reverse = facProd As q p := by
  intro As
  induction As with
  | nil =>
    intro q p
    cases q with
    | nil => cases p with
      | nil => rfl
      | cons j p => rw [facProd_length2 _ _ _ (by simp), facProd_length2 _ _ _ (by simp)]
    | cons x q => rw [facProd_length1 _ _ _ (by simp), facProd_length1 _ _ _ (by simp)]
  | cons U As ih =>
    intro q p
    by_cases hq : q.length = (U :: As).length
    · by_cases hp : p.length = (U :: As).length
      · match q, p, hq, hp with
        | x :: q, i :: p, hq, hp =>
          simp only [List.reverse_cons]
          rw [facProd_append _ _ _ _ _ _ (by simpa using hq) (by simpa using hp), ih]
          simp [facProd, mul_comm]
      · rw [facProd_length2 _ _ _ (by simpa using hp), facProd_length2 _ _ _ hp]
    · rw [facProd_length1 _ _ _ (by simpa using hq), facProd_length1 _ _ _ hq]

/-- row counts and column counts of a list of factor matrices -/
def rowsOf (Us : List (ND K)) : List ℕ := Us.map fun U => U.dim 0
def colsOf (Us : List (ND K)) : List ℕ := Us.map fun U => U.dim 1

def FacOk (Us : List (ND K)) : Prop := ∀ U ∈ Us, ∃ s n, U.shape = [s, n]

theorem facProd_oob2 : ∀ {Us : List (ND K)}, FacOk Us → ∀ {q i : List ℕ},
    ¬ InR (colsOf Us) i → facProd Us q i = 0
  | [], _, [], [], h => absurd trivial h
  | [], _, [], _ :: _, _ => rfl
  | [], _, _ :: _, [], _ => rfl
  | [], _, _ :: _, _ :: _, _ => rfl
  | _ :: _, _, [], [], _ => rfl
  | _ :: _, _, [], _ :: _, _ => rfl
  | _ :: _, _, _ :: _, [], _ => rfl
  | U :: Us, hU, q :: qs, i :: is, h => by
    obtain ⟨s, n, hs⟩ := hU U (by simp)
    rw [facProd]
    by_cases hi : i < n
    · rw [facProd_oob2 (fun V hV => hU V (by simp [hV])) (q := qs) (i := is), mul_zero]
      intro h2; apply h
      show i < U.dim 1 ∧ _
      exact ⟨by simpa [ND.dim, hs] using hi, h2⟩
    · rw [ND.oob2 hs (by tauto), zero_mul]

/-- loop body of `TuckerTensor.to_numpy` -/
def tuckerStep (sh rk : List ℕ) (A : ND K) (Ui : ND K × ℕ) : ND K :=
  ND.es_ijk_jl_ilk (A.reshape [(sh.take Ui.2).prod, rk.getD Ui.2 0, (rk.drop (Ui.2 + 1)).prod]) Ui.1

theorem tuckerStep_foldl (sh rk : List ℕ) : ∀ (rest done : List (ND K)), FacOk rest →
    sh = colsOf (done ++ rest) → rk = rowsOf (done ++ rest) →
    ∀ (A : ND K) (G : List ℕ → List ℕ → K),
    A.shape.prod = (colsOf done).prod * (rowsOf rest).prod →
    (∀ p q, InR (colsOf done) p → InR (rowsOf rest) q →
      (A.reshape (colsOf done ++ rowsOf rest)).get (p ++ q) = G p q) →
    ((rest.zipIdx done.length).foldl (tuckerStep sh rk) A).shape.prod = sh.prod ∧
    ∀ p p', InR (colsOf done) p → InR (colsOf rest) p' →
      (((rest.zipIdx done.length).foldl (tuckerStep sh rk) A).reshape sh).get (p ++ p')
        = sumIdx (rowsOf rest) fun q => G p q * facProd rest q p'
  | [], done, _, hsh, hrk, A, G, hprod, hG => by
    simp only [List.append_nil] at hsh hrk
    refine ⟨by simpa [rowsOf, hsh] using hprod, fun p p' hp hp' => ?_⟩
    have : p' = [] := by cases p' with | nil => rfl | cons => exact hp'.elim
    subst this
    have := hG p [] hp trivial
    simp only [rowsOf, List.map_nil, List.append_nil] at this
    simpa [rowsOf, facProd, hsh] using this
  | U :: rest, done, hU, hsh, hrk, A, G, hprod, hG => by
    obtain ⟨s, n, hs⟩ := hU U (by simp)
    have hd0 : U.dim 0 = s := by simp [ND.dim, hs]
    have hd1 : U.dim 1 = n := by simp [ND.dim, hs]
    have hlen : (colsOf done).length = done.length := by simp [colsOf]
    have hlen' : (rowsOf done).length = done.length := by simp [rowsOf]
    have htake : sh.take done.length = colsOf done := by
      rw [hsh]; simp [colsOf]
    have hrk' : rk = rowsOf done ++ s :: rowsOf rest := by rw [hrk]; simp [rowsOf, hd0]
    have hget : rk.getD done.length 0 = s := by rw [hrk', ← hlen']; simp
    have hdrop : rk.drop (done.length + 1) = rowsOf rest := by
      rw [hrk', ← hlen', List.drop_append]; simp
    have hrows : rowsOf (U :: rest) = s :: rowsOf rest := by simp [rowsOf, hd0]
    set A1 := A.reshape [(colsOf done).prod, s, (rowsOf rest).prod] with hA1
    have hstep : tuckerStep sh rk A (U, done.length) = ND.es_ijk_jl_ilk A1 U := by
      simp only [tuckerStep, htake, hget, hdrop, hA1]
    have hA1s : A1.shape = [(colsOf done).prod, s, (rowsOf rest).prod] := rfl
    have hA1get : ∀ p q x, InR (colsOf done) p → InR (rowsOf rest) q → x < s →
        A1.get [ravel (colsOf done) p, x, ravel (rowsOf rest) q] = G p (x :: q) := by
      intro p q x hp hq hx
      rw [← hG p (x :: q) hp (by rw [hrows]; exact ⟨hx, hq⟩), hrows]
      have e : A1 = (A.reshape (colsOf done ++ s :: rowsOf rest)).reshape
          [(colsOf done).prod, s, (rowsOf rest).prod] := by
        rw [ND.reshape_reshape]
        · rw [hprod, hrows]; simp
        · rw [hprod, hrows]; simp
      rw [e]
      refine ND.reshape_get_of_ravel ?_ ?_ ?_
      · have := ravel_lt hp; have := ravel_lt hq; simp; tauto
      · simp only [ND.reshape_shape]; exact hp.append ⟨hx, hq⟩
      · simp only [ND.reshape_shape]; rw [ravel_append hp.length]; simp
    set A2 := ND.es_ijk_jl_ilk A1 U with hA2
    have hA2s : A2.shape = [(colsOf done).prod, n, (rowsOf rest).prod] :=
      ND.es_ijk_jl_ilk_shape hA1s hs
    have hcols : colsOf (done ++ [U]) = colsOf done ++ [n] := by simp [colsOf, hd1]
    have ih := tuckerStep_foldl sh rk rest (done ++ [U]) (fun V hV => hU V (by simp [hV]))
      (by rw [hsh]; simp) (by rw [hrk]; simp) A2
      (fun p q => ∑ x ∈ range s, G p.dropLast (x :: q) * U.get [x, p.getLastD 0])
      (by rw [hA2s, hcols]; simp; ring)
      (by
        intro p q hp hq
        rw [hcols] at hp
        obtain ⟨p0, l, rfl⟩ : ∃ p0 l, p = p0 ++ [l] := by
          have hl := hp.length
          have : p ≠ [] := by rintro rfl; simp at hl
          exact ⟨p.dropLast, p.getLast this, (List.dropLast_append_getLast this).symm⟩
        have hl0 : p0.length = (colsOf done).length := by have := hp.length; simpa using this
        rw [inR_append hl0] at hp
        obtain ⟨hp0, hl⟩ := hp
        have hl' : l < n := hl.1
        have hA2g : (A2.reshape (colsOf (done ++ [U]) ++ rowsOf rest)).get (p0 ++ [l] ++ q)
            = A2.get [ravel (colsOf done) p0, l, ravel (rowsOf rest) q] := by
          rw [hcols]
          refine ND.reshape_get_of_ravel ?_ ?_ ?_
          · rw [List.append_assoc, List.append_assoc]; exact hp0.append ⟨hl', hq⟩
          · rw [hA2s]; have := ravel_lt hp0; have := ravel_lt hq; simp; tauto
          · rw [hA2s, List.append_assoc, List.append_assoc, ravel_append hl0]; simp
        rw [hA2g, hA2, ND.es_ijk_jl_ilk_get hA1s hs]
        refine sum_congr rfl fun x hx => ?_
        rw [hA1get p0 q x hp0 hq (by simpa using hx)]
        simp [List.getLastD_eq_getLast?])
    rw [List.length_append, List.length_singleton] at ih
    simp only [List.zipIdx_cons, List.foldl_cons]
    rw [hstep]
    refine ⟨ih.1, ?_⟩
    intro p p' hp hp'
    match p', hp' with
    | l :: p', hp' =>
      have hp'' : l < n ∧ InR (colsOf rest) p' := by
        simpa [colsOf, hd1] using hp'
      have := ih.2 (p ++ [l]) p' (by rw [hcols]; exact hp.append ⟨hp''.1, trivial⟩) hp''.2
      rw [List.append_assoc] at this
      rw [show p ++ l :: p' = p ++ ([l] ++ p') by rfl, this, hrows, sumIdx_cons, ← sumIdx_sum]
      refine sumIdx_congr fun q _ => ?_
      simp only [List.dropLast_concat, facProd]
      rw [sum_mul]
      refine sum_congr rfl fun x _ => ?_
      simp [List.getLastD_eq_getLast?, mul_assoc]

theorem Tucker.toNumpy_shape (X : Tucker K) : X.toNumpy.shape = X.shape := rfl

theorem Tucker.toNumpy_get {X : Tucker K} (h : X.Valid) (idx : List ℕ) :
    X.toNumpy.get idx = tuckerEntry X idx := by
  by_cases hin : InR X.shape idx
  · have := (tuckerStep_foldl X.shape X.rank X.factors [] h.1 rfl rfl X.core (fun _ q => X.core.get q)
      (by rw [h.2]; simp [colsOf, rowsOf, Tucker.rank])
      (by
        intro p q hp hq
        have : p = [] := by cases p with | nil => rfl | cons => exact hp.elim
        subst this
        have e : colsOf ([] : List (ND K)) ++ rowsOf X.factors = X.core.shape := by
          rw [h.2]; simp [colsOf, rowsOf, Tucker.rank]
        rw [e, ND.reshape_self]; rfl)).2 [] idx trivial hin
    exact this
  · rw [ND.supp _ _ (by rw [Tucker.toNumpy_shape]; exact hin), tuckerEntry]
    symm
    refine sumIdx_eq_zero fun q _ => ?_
    rw [facProd_oob2 h.1 hin, mul_zero]

end

/-! ### Sparse -/

section
variable [Zero K]

@[simp] theorem ND.setEntry_shape (A : ND K) (i : List ℕ) (v : K) :
    (A.setEntry i v).shape = A.shape := rfl

theorem ND.setEntry_get {A : ND K} {i : List ℕ} (hi : InR A.shape i) (v : K) (j : List ℕ) :
    (A.setEntry i v).get j = if j = i then v else A.get j := by
  by_cases h : InR A.shape j
  · exact (ND.ofFn_get h)
  · rw [ND.supp _ _ (by simpa using h), A.supp _ h]
    rw [if_neg]; rintro rfl; exact h hi

theorem setEntry_foldl_shape (es : List (List ℕ × K)) (A : ND K) :
    (es.foldl (fun A e => A.setEntry e.1 e.2) A).shape = A.shape := by
  induction es generalizing A with
  | nil => rfl
  | cons e es ih => rw [List.foldl_cons, ih]; rfl

theorem Sparse.toNumpy_shape (X : Sparse K) : X.toNumpy.shape = X.shape :=
  setEntry_foldl_shape _ _

theorem Sparse.dict_foldl_get (sh : List ℕ) (es : List (List ℕ × K)) (A : ND K) (d : ℕ → Option K)
    (hA : A.shape = sh) (he : ∀ e ∈ es, InR sh e.1)
    (h0 : ∀ i, InR sh i → A.get i = (d (ravel sh i)).getD 0) (i : List ℕ) (hi : InR sh i) :
    (es.foldl (fun A e => A.setEntry e.1 e.2) A).get i
      = ((es.foldl (fun d e => Function.update d (ravel sh e.1) (some e.2)) d) (ravel sh i)).getD 0 := by
  induction es generalizing A d with
  | nil => exact h0 i hi
  | cons e es ih =>
    rw [List.foldl_cons, List.foldl_cons]
    have hein := he e (by simp)
    refine ih _ _ (by simpa using hA) (fun x hx => he x (by simp [hx])) ?_
    intro j hj
    rw [ND.setEntry_get (by rw [hA]; exact hein)]
    by_cases hji : j = e.1
    · subst hji; simp
    · rw [if_neg hji, Function.update_of_ne]
      · exact h0 j hj
      · intro hr; exact hji (ravel_inj hj hein hr)

/-- `dict` lookups are entries of the dense array, also with repeated indices. -/
theorem Sparse.dict_get {X : Sparse K} (h : X.Valid) {i : List ℕ} (hi : InR X.shape i) :
    (X.dict (ravel X.shape i)).getD 0 = X.toNumpy.get i :=
  (Sparse.dict_foldl_get X.shape X.entries (ND.zeros X.shape) (fun _ => none) rfl h
    (by simp) i hi).symm

end

theorem setEntry_foldl_get [AddCommMonoid K] (sh : List ℕ) (es : List (List ℕ × K)) (A : ND K)
    (hA : A.shape = sh) (he : ∀ e ∈ es, InR sh e.1) (hn : (es.map Prod.fst).Nodup) (j : List ℕ) :
    (es.foldl (fun A e => A.setEntry e.1 e.2) A).get j
      = if j ∈ es.map Prod.fst then (es.map fun e => if e.1 = j then e.2 else 0).sum
        else A.get j := by
  induction es generalizing A with
  | nil => simp
  | cons e es ih =>
    rw [List.foldl_cons, ih _ (by simpa using hA) (fun x hx => he x (by simp [hx]))
      (by simpa using hn.of_cons)]
    have hein := he e (by simp)
    simp only [List.map_cons, List.nodup_cons] at hn
    rw [ND.setEntry_get (by rw [hA]; exact hein)]
    by_cases hj : j = e.1
    · subst hj
      have hz : (es.map fun x => if x.1 = e.1 then x.2 else 0).sum = 0 := by
        apply List.sum_eq_zero
        intro v hv
        obtain ⟨x, hx, rfl⟩ := List.mem_map.1 hv
        rw [if_neg]
        intro h; exact hn.1 (List.mem_map.2 ⟨x, hx, h⟩)
      rw [if_neg hn.1]
      simp [hz]
    · have : ¬ e.1 = j := fun h => hj h.symm
      have hm : j ∈ e.1 :: es.map Prod.fst ↔ j ∈ es.map Prod.fst := by
        rw [List.mem_cons]; tauto
      simp only [hm, List.map_cons, List.sum_cons, this, if_false, zero_add, hj]

theorem Sparse.toNumpy_get [AddCommMonoid K] {X : Sparse K} (h : X.Valid) (hd : X.Distinct)
    (j : List ℕ) : X.toNumpy.get j = sparseEntry X j := by
  rw [Sparse.toNumpy, setEntry_foldl_get X.shape _ _ rfl h hd, sparseEntry]
  split_ifs with hj
  · rfl
  · simp only [ND.zeros_get]
    symm
    apply List.sum_eq_zero
    intro v hv
    obtain ⟨x, hx, rfl⟩ := List.mem_map.1 hv
    rw [if_neg]
    intro h; exact hj (List.mem_map.2 ⟨x, hx, h⟩)

/-! ### All formats -/

section
variable [CommSemiring K]

theorem Leaf.toNumpy_shape {X : Leaf K} (h : X.Valid) : X.toNumpy.shape = X.shape := by
  cases X with
  | dense X => rfl
  | sparse X => exact X.toNumpy_shape
  | tt X => exact TT.toNumpy_shape h
  | cp X => exact CP.toNumpy_shape h
  | tucker X => rfl

theorem TSum.foldl_add (ts : List (Leaf K)) (sh : List ℕ) (A : ND K) (hA : A.shape = sh)
    (h : ∀ t ∈ ts, t.Valid ∧ t.shape = sh) :
    (ts.foldl (fun s t => s.add t.toNumpy) A).shape = sh ∧
    ∀ i, (ts.foldl (fun s t => s.add t.toNumpy) A).get i
      = A.get i + (ts.map fun t => t.toNumpy.get i).sum := by
  induction ts generalizing A with
  | nil => exact ⟨hA, by simp⟩
  | cons t ts ih =>
    have ht := h t (by simp)
    have hs : t.toNumpy.shape = sh := by rw [Leaf.toNumpy_shape ht.1, ht.2]
    obtain ⟨h1, h2⟩ := ih (A.add t.toNumpy) (by simpa using hA) (fun x hx => h x (by simp [hx]))
    refine ⟨h1, fun i => ?_⟩
    rw [List.foldl_cons, h2, ND.add_get _ _ (by rw [hA, hs])]
    simp [add_assoc]

theorem TSum.toNumpy_shape {X : TSum K} (h : X.Valid) : X.toNumpy.shape = X.shape :=
  (TSum.foldl_add X.tensors X.shape _ rfl h).1

theorem TSum.toNumpy_get {X : TSum K} (h : X.Valid) (i : List ℕ) :
    X.toNumpy.get i = (X.tensors.map fun t => t.toNumpy.get i).sum := by
  have := (TSum.foldl_add X.tensors X.shape (ND.zeros X.shape) rfl h).2 i
  rw [ND.zeros_get, zero_add] at this
  exact this

theorem Tensor.toNumpy_shape {X : Tensor K} (h : X.Valid) : X.toNumpy.shape = X.shape := by
  cases X with
  | leaf X => exact Leaf.toNumpy_shape h
  | sum X => exact TSum.toNumpy_shape h

end

end TTS
