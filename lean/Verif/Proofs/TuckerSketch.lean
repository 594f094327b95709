import Verif.Spec.TuckerSketch
import Verif.Proofs.Lossless
import Verif.Proofs.Stream

/-! The streaming sketch of a Tucker tensor with any number of modes. -/

namespace TTS

open Finset

variable {K : Type*} [CommRing K]

def eyes (sh : List ℕ) : List (ND K) := sh.map eyeND

theorem facProd_eyes : ∀ (sh s p : List ℕ), InR sh s → InR sh p →
    facProd (eyes sh : List (ND K)) s p = if s = p then 1 else 0
  | [], [], [], _, _ => by simp [eyes, facProd]
  | n :: sh, x :: s, y :: p, hs, hp => by
    have := facProd_eyes sh s p hs.2 hp.2
    simp only [eyes, List.map_cons, facProd] at this ⊢
    rw [this, eyeND_get hs.1 hp.1]
    by_cases h1 : x = y <;> by_cases h2 : s = p <;> simp [h1, h2]

theorem sum_eyes {sh s : List ℕ} (hs : InR sh s) (F : List ℕ → K) :
    sumIdx sh (fun p => facProd (eyes sh : List (ND K)) s p * F p) = F s := by
  rw [← sumIdx_ite_eq hs F]
  refine sumIdx_congr fun p hp => ?_
  rw [facProd_eyes _ _ _ hs hp]
  by_cases h : s = p
  · simp [h]
  · rw [if_neg h, if_neg (Ne.symm h), zero_mul]

/-- the core with the factor of mode `mu` only -/
def tuckerAt (X : Tucker K) (mu : ℕ) : Tucker K :=
  ⟨eyes (X.rank.take mu) ++ X.factors.getD mu (ND.zeros []) :: eyes (X.rank.drop (mu + 1)), X.core⟩

/-- the core with no factors -/
def tuckerCore (X : Tucker K) : Tucker K := ⟨eyes X.rank, X.core⟩

theorem eyes_rank (sh : List ℕ) : (eyes sh : List (ND K)).map (fun U => U.dim 0) = sh := by
  unfold eyes
  rw [List.map_map]
  conv_rhs => rw [← List.map_id sh]
  exact List.map_congr_left fun n _ => rfl

theorem eyes_shape (sh : List ℕ) : (eyes sh : List (ND K)).map (fun U => U.dim 1) = sh := by
  unfold eyes
  rw [List.map_map]
  conv_rhs => rw [← List.map_id sh]
  exact List.map_congr_left fun n _ => rfl

theorem eyes_mat (sh : List ℕ) : ∀ U ∈ (eyes sh : List (ND K)), ∃ s n, U.shape = [s, n] := by
  intro U hU
  obtain ⟨n, _, rfl⟩ := List.mem_map.1 hU
  exact ⟨n, n, rfl⟩

theorem tuckerAt_rank {X : Tucker K} {mu : ℕ} (hX : X.Valid) (hmu : mu < X.rank.length) :
    (tuckerAt X mu).rank = X.rank := by
  have h := hX.factor_shape (k := mu) (by simpa [Tucker.rank] using hmu)
  unfold Tucker.rank tuckerAt
  simp only [List.map_append, List.map_cons, eyes_rank]
  rw [ND.dim, h]
  exact (shape_three X.rank hmu).symm

theorem tuckerAt_shape {X : Tucker K} {mu : ℕ} (hX : X.Valid) (hmu : mu < X.rank.length) :
    (tuckerAt X mu).shape = X.rank.take mu ++ X.shape.getD mu 0 :: X.rank.drop (mu + 1) := by
  have h := hX.factor_shape (k := mu) (by simpa [Tucker.rank] using hmu)
  unfold Tucker.shape tuckerAt
  simp only [List.map_append, List.map_cons, eyes_shape]
  rw [ND.dim, h]
  rfl

theorem tuckerAt_valid {X : Tucker K} {mu : ℕ} (hX : X.Valid) (hmu : mu < X.rank.length) :
    (tuckerAt X mu).Valid := by
  refine ⟨fun U hU => ?_, by rw [tuckerAt_rank hX hmu]; exact hX.2⟩
  rcases List.mem_append.1 hU with h | h
  · exact eyes_mat _ U h
  · rcases List.mem_cons.1 h with rfl | h
    · exact ⟨_, _, hX.factor_shape (k := mu) (by simpa [Tucker.rank] using hmu)⟩
    · exact eyes_mat _ U h

theorem tuckerCore_rank (X : Tucker K) : (tuckerCore X).rank = X.rank := eyes_rank _
theorem tuckerCore_shape (X : Tucker K) : (tuckerCore X).shape = X.rank := eyes_shape _
theorem tuckerCore_valid {X : Tucker K} (hX : X.Valid) : (tuckerCore X).Valid :=
  ⟨eyes_mat _, by rw [tuckerCore_rank]; exact hX.2⟩

/-- contractions by core index -/
def RowsL (X : Tucker K) (k r : ℕ) (P : List ℕ → ℕ → K) (M : ND K) : Prop :=
  M.shape = [(X.rank.take k).prod, r] ∧ ∀ s a, InR (X.rank.take k) s → a < r →
    M.get [ravel (X.rank.take k) s, a] = P s a

def RowsR (X : Tucker K) (k r : ℕ) (Q : List ℕ → ℕ → K) (M : ND K) : Prop :=
  M.shape = [(X.rank.drop k).prod, r] ∧ ∀ t b, InR (X.rank.drop k) t → b < r →
    M.get [ravel (X.rank.drop k) t, b] = Q t b

theorem eyes_take (sh : List ℕ) (k : ℕ) : (eyes sh : List (ND K)).take k = eyes (sh.take k) := by
  simp [eyes, List.map_take]
theorem eyes_drop (sh : List ℕ) (k : ℕ) : (eyes sh : List (ND K)).drop k = eyes (sh.drop k) := by
  simp [eyes, List.map_drop]

theorem core_contrL {X : Tucker K} {k r : ℕ} {P : List ℕ → ℕ → K} {M : ND K} (h : RowsL X k r P M) :
    IsContrL (.tucker (tuckerCore X)) k r P M := by
  obtain ⟨h1, h2⟩ := h
  refine ⟨by rw [tuckerCore_rank]; exact h1, fun s a hs ha => ?_⟩
  rw [tuckerCore_rank] at hs ⊢
  rw [h2 s a hs ha, tuckerCore_shape]
  show _ = sumIdx _ fun p => facProd ((eyes X.rank).take k) s p * P p a
  rw [eyes_take, sum_eyes hs fun p => P p a]

theorem core_contrR {X : Tucker K} {k r : ℕ} {Q : List ℕ → ℕ → K} {M : ND K} (h : RowsR X k r Q M) :
    IsContrR (.tucker (tuckerCore X)) k r Q M := by
  obtain ⟨h1, h2⟩ := h
  refine ⟨by rw [tuckerCore_rank]; exact h1, fun s a hs ha => ?_⟩
  rw [tuckerCore_rank] at hs ⊢
  rw [h2 s a hs ha, tuckerCore_shape]
  show _ = sumIdx _ fun p => facProd ((eyes X.rank).drop k) s p * Q p a
  rw [eyes_drop, sum_eyes hs fun p => Q p a]

theorem eyes_length (sh : List ℕ) : (eyes sh : List (ND K)).length = sh.length := by simp [eyes]

theorem at_contrL {X : Tucker K} (hX : X.Valid) {mu r : ℕ} (hmu : mu < X.rank.length) {P : List ℕ → ℕ → K} {M : ND K}
    (h : RowsL X mu r P M) : IsContrL (.tucker (tuckerAt X mu)) mu r P M := by
  obtain ⟨h1, h2⟩ := h
  have hl : (X.rank.take mu).length = mu := by simp; omega
  refine ⟨by rw [tuckerAt_rank hX hmu]; exact h1, fun s a hs ha => ?_⟩
  rw [tuckerAt_rank hX hmu] at hs ⊢
  rw [h2 s a hs ha, tuckerAt_shape hX hmu, List.take_left' hl]
  show _ = sumIdx _ fun p => facProd ((eyes (X.rank.take mu) ++ X.factors.getD mu (ND.zeros []) :: eyes (X.rank.drop (mu + 1))).take mu) s p * P p a
  rw [List.take_left' (by rw [eyes_length, hl]), sum_eyes hs fun p => P p a]

theorem drop_mid {α : Type*} {mu : ℕ} (A : List α) (x : α) (B : List α) (hA : A.length = mu) :
    (A ++ x :: B).drop (mu + 1) = B := by
  rw [← hA, List.drop_append]; simp

theorem at_contrR {X : Tucker K} (hX : X.Valid) {mu r : ℕ} (hmu : mu < X.rank.length) {Q : List ℕ → ℕ → K} {M : ND K}
    (h : RowsR X (mu + 1) r Q M) : IsContrR (.tucker (tuckerAt X mu)) (mu + 1) r Q M := by
  obtain ⟨h1, h2⟩ := h
  have hl : (X.rank.take mu).length = mu := by simp; omega
  refine ⟨by rw [tuckerAt_rank hX hmu]; exact h1, fun s a hs ha => ?_⟩
  rw [tuckerAt_rank hX hmu] at hs ⊢
  rw [h2 s a hs ha, tuckerAt_shape hX hmu, drop_mid _ _ _ hl]
  show _ = sumIdx _ fun p => facProd ((eyes (X.rank.take mu) ++ X.factors.getD mu (ND.zeros []) :: eyes (X.rank.drop (mu + 1))).drop (mu + 1)) s p * Q p a
  have := drop_mid (eyes (X.rank.take mu)) (X.factors.getD mu (ND.zeros [])) (eyes (X.rank.drop (mu + 1)))
    (by rw [eyes_length, hl])
  rw [this, sum_eyes hs fun p => Q p a]

theorem sumIdx_three {sh : List ℕ} {mu : ℕ} (hmu : mu < sh.length) (F : List ℕ → K) :
    sumIdx sh F = sumIdx (sh.take mu) fun p => sumIdx (sh.getD mu 0 :: sh.drop (mu + 1)) fun q => F (p ++ q) := by
  conv_lhs => rw [shape_three sh hmu, sumIdx_append]

theorem tuckerCore_get {X : Tucker K} (hX : X.Valid) {i : List ℕ} (hi : InR X.rank i) :
    (tuckerCore X).toNumpy.get i = X.core.get i := by
  rw [Tucker.toNumpy_get (tuckerCore_valid hX)]
  · show sumIdx (tuckerCore X).rank (fun q => X.core.get q * facProd (eyes X.rank) q i) = _
    rw [tuckerCore_rank, ← sumIdx_ite_eq hi X.core.get]
    refine sumIdx_congr fun q hq => ?_
    rw [facProd_eyes _ _ _ hq hi, mul_ite, mul_one, mul_zero]

theorem tuckerAt_get {X : Tucker K} (hX : X.Valid) {mu : ℕ} (hmu : mu < X.rank.length) {s t : List ℕ} {j : ℕ}
    (hs : InR (X.rank.take mu) s) (ht : InR (X.rank.drop (mu + 1)) t) :
    (tuckerAt X mu).toNumpy.get (s ++ j :: t) = X.coreMode mu (s ++ j :: t) := by
  have hl : s.length = mu := by rw [hs.length]; simp; omega
  rw [Tucker.toNumpy_get (tuckerAt_valid hX hmu)]
  show sumIdx (tuckerAt X mu).rank (fun q => X.core.get q * facProd (eyes (X.rank.take mu)
    ++ X.factors.getD mu (ND.zeros []) :: eyes (X.rank.drop (mu + 1))) q (s ++ j :: t)) = _
  rw [tuckerAt_rank hX hmu]
  rw [sumIdx_three hmu]
  have e1 : ∀ p, InR (X.rank.take mu) p → (sumIdx (X.rank.getD mu 0 :: X.rank.drop (mu + 1)) fun q =>
      X.core.get (p ++ q) * facProd (eyes (X.rank.take mu)
        ++ X.factors.getD mu (ND.zeros []) :: eyes (X.rank.drop (mu + 1))) (p ++ q) (s ++ j :: t))
      = if p = s then ∑ u ∈ range (X.rank.getD mu 0),
          X.core.get (p ++ u :: t) * (X.factors.getD mu (ND.zeros [])).get [u, j] else 0 := by
    intro p hp
    rw [sumIdx_cons]
    have e2 : ∀ u q, InR (X.rank.drop (mu + 1)) q → X.core.get (p ++ u :: q) * facProd (eyes (X.rank.take mu)
        ++ X.factors.getD mu (ND.zeros []) :: eyes (X.rank.drop (mu + 1))) (p ++ u :: q) (s ++ j :: t)
        = if q = t then (if p = s then X.core.get (p ++ u :: q) *
            (X.factors.getD mu (ND.zeros [])).get [u, j] else 0) else 0 := by
      intro u q hq
      rw [facProd_append _ _ _ _ _ _ (by rw [hp.length, eyes_length]) (by rw [hs.length, eyes_length]), facProd,
        facProd_eyes _ _ _ hp hs, facProd_eyes _ _ _ hq ht]
      by_cases h1 : p = s <;> by_cases h2 : q = t <;> simp [h1, h2]
    rw [sum_congr rfl fun u _ => sumIdx_congr (e2 u)]
    rw [sum_congr rfl fun u _ => sumIdx_ite_eq ht _]
    split <;> simp
  rw [sumIdx_congr e1, sumIdx_ite_eq hs]
  unfold Tucker.coreMode
  refine sum_congr rfl fun u _ => ?_
  have h1 : (s ++ j :: t).set mu u = s ++ u :: t := by
    rw [← hl, List.set_append_right _ _ le_rfl]; simp
  have h2 : (s ++ j :: t).getD mu 0 = j := by
    rw [getD_eq (by simp; omega), List.getElem_append_right (by omega)]; simp [hl]
  rw [h1, h2]

theorem omega_rows {X : Tucker K} (hX : X.Valid) {mu lr rr : ℕ} (hmu : mu + 1 ≤ X.rank.length)
    {P Q : List ℕ → ℕ → K} {l r : ND K} (hl : RowsL X (mu + 1) lr P l) (hr : RowsR X (mu + 1) rr Q r) :
    omegaLeaf (.tucker X) mu l r = ND.ofFn [lr, rr] fun i =>
      sumIdx (X.rank.take (mu + 1)) fun p => sumIdx (X.rank.drop (mu + 1)) fun q =>
        P p (i.getD 0 0) * X.core.get (p ++ q) * Q q (i.getD 1 0) := by
  have h := omega_tucker (tuckerCore_valid hX) (by rw [tuckerCore_shape]; exact hmu) (core_contrL hl) (core_contrR hr)
  rw [tuckerCore_shape] at h
  refine h.trans (ND.ext' rfl fun i hi => ?_)
  rw [ND.ofFn_get (by exact hi), ND.ofFn_get (by exact hi)]
  refine sumIdx_congr fun p hp => sumIdx_congr fun q hq => ?_
  rw [tuckerCore_get hX]
  rw [← List.take_append_drop (mu + 1) X.rank]
  exact (inR_append hp.length).2 ⟨hp, hq⟩

theorem psi_rows {X : Tucker K} (hX : X.Valid) {mu lr rr : ℕ} (hmu : mu < X.rank.length) (hd : 2 ≤ X.rank.length)
    {P Q : List ℕ → ℕ → K} {lo ro : Option (ND K)}
    (hl : (mu = 0 ∧ lo = none ∧ lr = 1 ∧ ∀ a, P [] a = 1) ∨ (0 < mu ∧ ∃ l, lo = some l ∧ RowsL X mu lr P l))
    (hr : (mu + 1 = X.rank.length ∧ ro = none ∧ rr = 1 ∧ ∀ b, Q [] b = 1) ∨
      (mu + 1 < X.rank.length ∧ ∃ r, ro = some r ∧ RowsR X (mu + 1) rr Q r)) (sh : List ℕ) :
    psiLeaf (.tucker X) mu sh lo ro = .ok (ND.ofFn [lr, X.shape.getD mu 0, rr] fun i =>
      psiVal X.rank (X.coreMode mu) P Q mu (i.getD 0 0) (i.getD 1 0) (i.getD 2 0)) := by
  obtain ⟨P', hP, hP'⟩ : ∃ P' : List ℕ → ℕ → K, ((mu = 0 ∧ lo = none ∧ lr = 1 ∧ P' = fun _ _ => 1) ∨
      (0 < mu ∧ ∃ l, lo = some l ∧ RowsL X mu lr P' l)) ∧ ∀ p a, InR (X.rank.take mu) p → P' p a = P p a := by
    rcases hl with ⟨h, h', h'', h3⟩ | h
    · refine ⟨_, .inl ⟨h, h', h'', rfl⟩, fun p a hp => ?_⟩
      subst h
      have : p = [] := by simpa using hp.length
      rw [this, h3]
    · exact ⟨P, .inr h, fun _ _ _ => rfl⟩
  obtain ⟨Q', hQ, hQ'⟩ : ∃ Q' : List ℕ → ℕ → K, ((mu + 1 = X.rank.length ∧ ro = none ∧ rr = 1 ∧ Q' = fun _ _ => 1) ∨
      (mu + 1 < X.rank.length ∧ ∃ r, ro = some r ∧ RowsR X (mu + 1) rr Q' r)) ∧
      ∀ q b, InR (X.rank.drop (mu + 1)) q → Q' q b = Q q b := by
    rcases hr with ⟨h, h', h'', h3⟩ | h
    · refine ⟨_, .inl ⟨h, h', h'', rfl⟩, fun q b hq => ?_⟩
      rw [h, List.drop_length] at hq
      have : q = [] := by simpa using hq.length
      rw [this, h3]
    · exact ⟨Q, .inr h, fun _ _ _ => rfl⟩
  have hs := tuckerAt_shape hX hmu
  have hsl : (tuckerAt X mu).shape.length = X.rank.length := by
    rw [← tuckerAt_rank hX hmu]; simp [Tucker.shape, Tucker.rank]
  have hl1 : (X.rank.take mu).length = mu := by simp; omega
  have hg : (tuckerAt X mu).shape.getD mu 0 = X.shape.getD mu 0 := by
    rw [hs, getD_eq (by simp; omega), List.getElem_append_right (by omega)]; simp [hl1]
  have h := psi_spec (X := .tucker (tuckerAt X mu)) (mu := mu) (lr := lr) (rr := rr) (L := P') (R := Q') (lo := lo)
    (ro := ro) (tuckerAt_valid hX hmu) trivial (by show 2 ≤ (tuckerAt X mu).shape.length; omega) ⟨?_, ?_⟩
  · have e : psiLeaf (.tucker (tuckerAt X mu)) mu [lr, (tuckerAt X mu).shape.getD mu 0, rr] lo ro
        = psiLeaf (.tucker X) mu sh lo ro := by
      show psiTucker _ _ _ _ = psiTucker _ _ _ _
      have hf : (tuckerAt X mu).factors.getD mu (ND.zeros []) = X.factors.getD mu (ND.zeros []) := by
        show (eyes (X.rank.take mu) ++ X.factors.getD mu (ND.zeros []) :: eyes (X.rank.drop (mu + 1))).getD mu _ = _
        rw [getD_eq (by simp [eyes_length]; omega), List.getElem_append_right (by rw [eyes_length]; omega)]
        simp [eyes_length, hl1]
      have hr : (tuckerAt X mu).rank.getD mu 0 = X.rank.getD mu 0 := by rw [tuckerAt_rank hX hmu]
      unfold psiTucker
      rw [hf, hr]
      rfl
    rw [← e]
    refine h.trans (congrArg Except.ok ?_)
    show psiArr (tuckerAt X mu).shape (tuckerAt X mu).toNumpy.get P' Q' lr rr mu = _
    unfold psiArr
    rw [hg]
    refine ND.ext' rfl fun i hi => ?_
    rw [ND.ofFn_get (by exact hi), ND.ofFn_get (by exact hi)]
    unfold psiVal
    have h1 : (tuckerAt X mu).shape.take mu = X.rank.take mu := by rw [hs, List.take_left' hl1]
    have h2 : (tuckerAt X mu).shape.drop (mu + 1) = X.rank.drop (mu + 1) := by rw [hs, drop_mid _ _ _ hl1]
    rw [h1, h2]
    refine sumIdx_congr fun p hp => sumIdx_congr fun q hq => ?_
    rw [tuckerAt_get hX hmu hp hq, hP' _ _ hp, hQ' _ _ hq]
  · rcases hP with h | ⟨h, l, h1, h2⟩
    · exact .inl h
    · exact .inr ⟨h, l, h1, at_contrL hX hmu h2⟩
  · have e : (Leaf.tucker (tuckerAt X mu)).shape.length = X.rank.length := hsl
    rcases hQ with ⟨h, h'⟩ | ⟨h, r, h1, h2⟩
    · exact .inl ⟨by rw [e]; exact h, h'⟩
    · exact .inr ⟨by rw [e]; exact h, r, h1, at_contrR hX hmu h2⟩

/-- The rows of the right contraction, for any number of modes. -/
theorem right_tucker_rows {X : Tucker K} {k r : ℕ} {E : List ℕ → ℕ → K} {M : ND K} (hk : k ≤ X.shape.length)
    (h : IsContrL (.tucker X.T) (X.shape.length - k) r E M) :
    RowsR X k r (fun t b => sumIdx (X.shape.drop k) fun q => facProd (X.factors.drop k)
      (unravel (X.rank.drop k).reverse (ravel (X.rank.drop k) t)).reverse q * E q.reverse b) M := by
  obtain ⟨h1, h2⟩ := h
  have hrl : X.rank.length = X.shape.length := by simp [Tucker.rank, Tucker.shape]
  have hfl : X.factors.length = X.shape.length := by simp [Tucker.shape]
  have hr : X.T.rank.take (X.shape.length - k) = (X.rank.drop k).reverse := by
    rw [Tucker.T_rank, ← hrl, take_reverse' _ _ (by omega)]
  have hs : X.T.shape.take (X.shape.length - k) = (X.shape.drop k).reverse := by
    rw [Tucker.T_shape, take_reverse' _ _ (by omega)]
  have hf : X.T.factors.take (X.shape.length - k) = (X.factors.drop k).reverse := by
    show X.factors.reverse.take _ = _
    rw [← hfl, take_reverse' _ _ (by omega)]
  rw [hr] at h1 h2
  refine ⟨by rw [h1, List.prod_reverse], fun t b ht hb => ?_⟩
  have hlt : ravel (X.rank.drop k) t < (X.rank.drop k).reverse.prod := by
    rw [List.prod_reverse]; exact ravel_lt ht
  have := h2 (unravel (X.rank.drop k).reverse (ravel (X.rank.drop k) t)) b (unravel_inR hlt) hb
  rw [ravel_unravel hlt, hs, sumIdx_reverse, hf] at this
  rw [this]
  refine sumIdx_congr fun q _ => ?_
  congr 1
  conv_lhs => rw [← List.reverse_reverse (unravel (X.rank.drop k).reverse (ravel (X.rank.drop k) t)), facProd_reverse]

theorem parts_tucker {env : Env K} {l r : DRM K} {X : Tucker K} (hl : l.Accepts (.tucker X)) (hr : r.Accepts (.tucker X))
    (hlt : l.transpose = false) (hrt : r.transpose = true) :
    Parts env l r X.shape (.tucker X)
      (fun mu => ND.ofFn [l.rank.getD mu 0, r.rank.reverse.getD mu 0] fun i =>
        omegaSpec X.rank X.core.get (X.absorbLeft (l.leftMats env))
          ((X.absorbRight (r.rightMats env)).misread X.rank) mu (i.getD 0 0) (i.getD 1 0))
      (fun mu => ND.ofFn (psiShape X.shape l.rank r.rank.reverse mu) fun i =>
        psiSpec X.rank (X.coreMode mu) (X.absorbLeft (l.leftMats env))
          ((X.absorbRight (r.rightMats env)).misread X.rank) mu (i.getD 0 0) (i.getD 1 0) (i.getD 2 0)) := by
  obtain ⟨l1, l2⟩ := left_spec env hl hlt
  obtain ⟨r1, r2⟩ := right_raw env hr hrt
  have hd2 : 2 ≤ X.shape.length := hl.dim
  have hV : X.Valid := hl.valid
  have hrl : X.rank.length = X.shape.length := by simp [Tucker.rank, Tucker.shape]
  have hsh : X.shape = r.shape := hr.shape
  have hL : ∀ k < X.shape.length - 1, RowsL X (k + 1) (l.rank.getD k 0) (X.absorbLeft (l.leftMats env) (k + 1))
      ((l.sketchD env (.tucker X)).getD k (ND.zeros [])) := fun k hk => l2 k hk
  have hR : ∀ mu < X.shape.length - 1, RowsR X (mu + 1) (r.rank.reverse.getD mu 0)
      ((X.absorbRight (r.rightMats env)).misread X.rank (mu + 1))
      ((r.sketchD env (.tucker X)).getD mu (ND.zeros [])) := by
    intro mu hmu
    have h1 := right_tucker_rows (by omega) (r2 mu hmu)
    have e : (X.absorbRight (r.rightMats env)).misread X.rank (mu + 1) = fun t b => sumIdx (X.shape.drop (mu + 1)) fun q =>
        facProd (X.factors.drop (mu + 1)) (unravel (X.rank.drop (mu + 1)).reverse (ravel (X.rank.drop (mu + 1)) t)).reverse q
          * r.entry env (r.shape.length - 1 - (mu + 1)) q.reverse b := by
      funext t b
      unfold Mats.misread Tucker.absorbRight DRM.rightMats
      simp only [if_neg (show ¬ mu + 1 = r.shape.length by rw [← hsh]; omega)]
    rw [e]; exact h1
  refine ⟨rfl, l1, r1, fun mu hmu => ?_, fun mu hmu => ?_⟩
  · exact omega_rows hV (by omega) (hL mu hmu) (hR mu hmu)
  · refine psi_rows hV (by omega) (by omega) ?_ ?_ _
    · rcases Nat.eq_zero_or_pos mu with h0 | h0
      · left; subst h0
        refine ⟨rfl, rfl, rfl, ?_⟩
        intro a
        simp only [Tucker.absorbLeft, List.take_zero, sumIdx_nil, DRM.leftMats, if_true, mul_one]
        rfl
      · right
        refine ⟨h0, _, if_pos h0, ?_⟩
        have := hL (mu - 1) (by omega)
        rw [show mu - 1 + 1 = mu by omega] at this
        rwa [if_pos h0]
    · by_cases h1 : mu < X.shape.length - 1
      · right
        refine ⟨by omega, _, if_pos h1, ?_⟩
        rw [if_pos h1]
        exact hR mu h1
      · left
        have e : mu + 1 = X.shape.length := by omega
        refine ⟨by omega, if_neg h1, if_neg h1, ?_⟩
        intro b
        have h4 : X.rank.drop X.shape.length = [] := by simp [Tucker.shape, Tucker.rank]
        have h3 : X.factors.drop X.shape.length = [] := by simp [Tucker.shape]
        simp only [Mats.misread, Tucker.absorbRight, e, List.drop_length, sumIdx_nil, h3, h4, DRM.rightMats, ← hsh,
          if_true, mul_one]
        rfl

theorem Tensor.distinct_mem {X : Tensor K} (hd : X.Distinct) : ∀ t ∈ X.summands, t.Distinct := by
  cases X with
  | leaf X => intro t ht; simp only [Tensor.summands, List.mem_singleton] at ht; subst ht; exact hd
  | sum X => exact hd

end TTS
