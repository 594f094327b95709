import Verif.Props.Orth
import Verif.Props.Sketch
import Verif.Proofs.OrthErrRun
import Verif.Proofs.TuckerSketch
import Verif.Proofs.RightCols
import Verif.Proofs.FloatApprox

/-!
# C41 and C42 for every format

The form of the result of `orthogonal_sketch` and `hmt_sketch` and the success of valid calls need no condition on the
format of the tensor: Tucker tensors with any number of modes, sparse tensors with repeated indices and lazy sums of
any formats are included.
-/

namespace TTS.Props

open TTS Finset

section
variable {K : Type*} [CommRing K]

/-- The last Psi core does not depend on the right DRM: for every format it is the contraction of the tensor with the
left matrix. -/
theorem last_psi {env : Env K} {X : Tensor K} {l r : DRM K} (hX : X.Valid) (hl : l.AcceptsT X) (hr : r.AcceptsT X)
    (hlt : l.transpose = false) (hrt : r.transpose = true) (hD : X.Distinct) :
    ∀ a < (1 :: l.rank).getD (X.shape.length - 1) 0, ∀ j < X.shape.getD (X.shape.length - 1) 0,
      ((contSum env l r X.shape X.summands).psi.getD (X.shape.length - 1) (ND.zeros [])).get [a, j, 0]
        = pcL X.shape X.toNumpy.get (l.leftMats env) (X.shape.length - 1) a [j] := by
  intro a ha j hj
  have hd : 2 ≤ X.shape.length := by rw [hl.shape]; exact hl.wf.two
  obtain ⟨n1, n2⟩ := hl.ranks hr
  obtain ⟨m, hm⟩ : ∃ m, m = X.shape.length - 1 := ⟨_, rfl⟩
  rw [← hm] at ha hj ⊢
  have hin : InR (psiShape X.shape l.rank r.rank.reverse m) [a, j, 0] := by
    rw [psiShape_eq n2 (by omega)]
    refine ⟨ha, hj, ?_, trivial⟩
    rw [List.getD_append_right _ _ _ _ (by omega), n2, hm, Nat.sub_self]; exact Nat.one_pos
  rw [contSum_psi (by omega), ND.ofFn_get hin]
  have key : ∀ t ∈ X.summands, (pSk env l r t m).get [a, j, 0] = pcL X.shape t.toNumpy.get (l.leftMats env) m a [j] := by
    intro t ht
    have hsh : t.shape = X.shape := by rw [(hl.each t ht).shape, ← hl.shape]
    obtain ⟨l1, l2⟩ := left_spec env (hl.each t ht) hlt
    have hP : pSk env l r t m = psiArr t.shape t.toNumpy.get (l.leftMats env m) (fun _ _ => 1)
        (if 0 < m then l.rank.getD (m - 1) 0 else 1) 1 m := by
      have h1 : ¬ m < t.shape.length - 1 := by rw [hsh]; omega
      have hA : PsiArgs t m (if 0 < m then l.rank.getD (m - 1) 0 else 1) 1 (l.leftMats env m) (fun _ _ => 1)
          (loAt (l.sketchD env t) m) (roAt (r.sketchD env t) t.shape.length m) := by
        refine ⟨.inr ⟨by omega, _, if_pos (show 0 < m by omega), ?_⟩, .inl ⟨by rw [hsh]; omega, if_neg h1, rfl, rfl⟩⟩
        have := l2 (m - 1) (by rw [hsh]; omega)
        rw [show m - 1 + 1 = m by omega] at this
        rwa [if_pos (show 0 < m by omega)]
      unfold pSk psiShape
      rw [if_neg h1, psi_spec (hl.each t ht).valid (Tensor.distinct_mem hD t ht) (by rw [hsh]; exact hd) hA]
    rw [hP]
    unfold psiArr
    rw [hsh, ND.ofFn_get]
    · unfold psiVal pcL
      refine sumIdx_congr fun p _ => ?_
      rw [show m + 1 = X.shape.length by omega, List.drop_length, sumIdx_nil, mul_one]
      rfl
    · have := hin
      unfold psiShape at this
      rwa [if_neg (show ¬ m < X.shape.length - 1 by omega)] at this
  rw [List.map_congr_left key]
  unfold pcL
  rw [← sumIdx_list_sum (X.shape.take m) X.summands fun p t => l.leftMats env m p a * t.toNumpy.get (p ++ [j])]
  refine sumIdx_congr fun p _ => ?_
  rw [List.sum_map_mul_left]
  congr 1
  exact (Tensor.get_sum hX _).symm

/-- A Psi core before orthogonalisation, in terms of the sketched unfoldings. -/
def psiCols (sh : List ℕ) (W : ℕ → List ℕ → ℕ → K) (cores : List (ND K)) (mu a j b : ℕ) : K :=
  sumIdx (sh.take mu) fun p => coreMats cores mu p a * W (mu + 1) (p ++ [j]) b

theorem psiCols_append (sh : List ℕ) (W : ℕ → List ℕ → ℕ → K) (cs ds : List (ND K)) (mu a j b : ℕ) (h : mu ≤ cs.length) :
    psiCols sh W (cs ++ ds) mu a j b = psiCols sh W cs mu a j b := by
  unfold psiCols
  rw [← coreMats_take (cs ++ ds) h, List.take_left]

/-- One step of the loop, for any format: an array of the right shape is orthogonalised. -/
theorem psiOrthStep_any {env : Env K} {X : Tensor K} {r : DRM K} (hX : X.Valid) (hd : 2 ≤ X.shape.length)
    (hr : r.AcceptsT X) (hrt : r.transpose = true) {lr : List ℕ} (hl : lr.length = X.shape.length - 1)
    {rc : List (List (ND K))} (hrc : r.contr env X = .ok rc)
    {cores : List (ND K)} (hc : OrthCores lr X.shape cores) {mu : ℕ} (hn : cores.length = mu)
    (hmu : mu < X.shape.length) (om : Option (List (ND K))) :
    ∃ P : ND K, P.shape = [(1 :: lr).getD mu 0, X.shape.getD mu 0, (r.rank.reverse ++ [1]).getD mu 0] ∧
      (X.Distinct → mu = X.shape.length - 1 → ∀ a < (1 :: lr).getD mu 0, ∀ j < X.shape.getD mu 0,
        P.get [a, j, 0] = pcL X.shape X.toNumpy.get (coreMats cores) mu a [j]) ∧
      (X.Distinct → ∀ a < (1 :: lr).getD mu 0, ∀ j < X.shape.getD mu 0, ∀ b < (r.rank.reverse ++ [1]).getD mu 0,
        P.get [a, j, b] = psiCols X.shape (X.rightCols env r) cores mu a j b) ∧
      psiOrthStep env X lr r.rank.reverse om rc cores mu
      = if mu < X.shape.length - 1 then
          (orthStep env P (om.map fun l => l.getD mu (ND.zeros []))).map fun Q => cores ++ [Q]
        else .ok (cores ++ [P]) := by
  obtain ⟨w1, w2⟩ := orth_wf hd hl hc (by omega)
  have hacc := acceptsT_of w1 w2 hX rfl (fun t _ => by cases t <;> rfl)
  have hs := streaming_sum (env := env) hacc hr rfl hrt
  have hC : (contSum env (orthDRM lr X.shape (padCores lr X.shape cores)) r X.shape X.summands).HasShape X.shape lr
      r.rank.reverse := by
    have := contSum_hasShape (env := env) (l := orthDRM lr X.shape (padCores lr X.shape cores)) (r := r) (sh := X.shape)
      (ts := X.summands) (hacc.ranks hr).2
    rwa [orth_rank hl] at this
  have hv : X.Distinct → mu = X.shape.length - 1 → ∀ a < (1 :: lr).getD mu 0, ∀ j < X.shape.getD mu 0,
      ((contSum env (orthDRM lr X.shape (padCores lr X.shape cores)) r X.shape X.summands).psi.getD mu (ND.zeros [])).get
        [a, j, 0] = pcL X.shape X.toNumpy.get (coreMats cores) mu a [j] := by
    intro hD hm a ha j hj
    subst hm
    rw [last_psi hX hacc hr rfl hrt hD _ (by rw [orth_rank hl]; exact ha) _ hj]
    unfold pcL
    rw [orth_leftMats env (by omega) (by omega)]
  have hw : X.Distinct → ∀ a < (1 :: lr).getD mu 0, ∀ j < X.shape.getD mu 0, ∀ b < (r.rank.reverse ++ [1]).getD mu 0,
      ((contSum env (orthDRM lr X.shape (padCores lr X.shape cores)) r X.shape X.summands).psi.getD mu (ND.zeros [])).get
        [a, j, b] = psiCols X.shape (X.rightCols env r) cores mu a j b := by
    intro hD a ha j hj b hb
    rw [(tensor_psi_cols hacc hr rfl hrt hD hs).1 mu hmu a (by rw [orth_rank hl]; exact ha) j hj b hb]
    unfold psiCols
    rw [orth_leftMats env (by omega) (by omega)]
  generalize contSum env (orthDRM lr X.shape (padCores lr X.shape cores)) r X.shape X.summands = C at hs hC hv hw
  obtain ⟨lc, rc', p1, p2, -, p4, p5⟩ := streaming_parts hs
  rw [orth_rank hl] at p5
  rw [hrc] at p2
  injection p2 with p2
  subst p2
  refine ⟨C.psi.getD mu (ND.zeros []), hC.psi mu hmu, hv, hw, ?_⟩
  have key : ∀ lc', (if 0 < mu then (orthDRM lr X.shape cores).contr env X else .ok []) = .ok lc' →
      psiAt X lr r.rank.reverse rc mu (pick lc' (mu - 1)) = .ok (C.psi.getD mu (ND.zeros [])) := by
    intro lc' h'
    have e : psiAt X lr r.rank.reverse rc mu (pick lc' (mu - 1)) = psiAt X lr r.rank.reverse rc mu (pick lc (mu - 1)) := by
      rcases Nat.eq_zero_or_pos mu with h0 | h0
      · subst h0; rfl
      · rw [if_pos h0] at h'
        have hne : cores ≠ [] := by intro h; rw [h] at hn; simp at hn; omega
        rw [orth_contr_take env lr X.shape cores _ hne] at h'
        unfold padCores at p1
        rw [p1] at h'
        have h'' : Except.ok (lc.map (List.take cores.length)) = (Except.ok lc' : Except PyErr _) := h'
        injection h'' with h''
        rw [← h'', pick_take _ _ _ (by omega)]
    rw [e, p5 mu hmu]
  unfold psiOrthStep
  match h' : (if 0 < mu then (orthDRM lr X.shape cores).contr env X else .ok []) with
  | .error e =>
    exfalso
    rcases Nat.eq_zero_or_pos mu with h0 | h0
    · subst h0; cases h'
    · rw [if_pos h0] at h'
      have hne : cores ≠ [] := by intro h; rw [h] at hn; simp at hn; omega
      rw [orth_contr_take env lr X.shape cores _ hne] at h'
      unfold padCores at p1
      rw [p1] at h'
      cases h'
  | .ok lc' =>
    simp only [key lc' h']
    split_ifs
    · cases orthStep env (C.psi.getD mu (ND.zeros []))
        (om.map fun l => l.getD mu (ND.zeros [])) <;> rfl
    · rfl

/-- What the loop has produced, up to the values of the arrays it orthogonalised. -/
structure OrthAny (env : Env K) (X : Tensor K) (W : ℕ → List ℕ → ℕ → K) (lr rr : List ℕ)
    (om : Option (List (ND K))) (cs : List (ND K)) (n : ℕ) : Prop where
  len : cs.length = n
  step : ∀ mu < n, mu < X.shape.length - 1 → ∃ P : ND K,
    P.shape = [(1 :: lr).getD mu 0, X.shape.getD mu 0, rr.getD mu 0] ∧
    orthStep env P (om.map fun l => l.getD mu (ND.zeros [])) = .ok (cs.getD mu (ND.zeros [])) ∧
    (X.Distinct → ∀ a < (1 :: lr).getD mu 0, ∀ j < X.shape.getD mu 0, ∀ b < rr.getD mu 0,
      P.get [a, j, b] = psiCols X.shape W cs mu a j b)
  last : ∀ mu < n, ¬ mu < X.shape.length - 1 →
    (cs.getD mu (ND.zeros [])).shape = [(1 :: lr).getD mu 0, X.shape.getD mu 0, (rr ++ [1]).getD mu 0] ∧
    (X.Distinct → ∀ a < (1 :: lr).getD mu 0, ∀ j < X.shape.getD mu 0,
      (cs.getD mu (ND.zeros [])).get [a, j, 0] = pcL X.shape X.toNumpy.get (coreMats cs) mu a [j])

theorem OrthAny.shape {env : Env K} {X : Tensor K} {W : ℕ → List ℕ → ℕ → K} {lr rr : List ℕ}
    {om : Option (List (ND K))} {cs : List (ND K)} {n : ℕ} (h : OrthAny env X W lr rr om cs n)
    (hl : lr.length = X.shape.length - 1) (hr : rr.length = X.shape.length - 1)
    (hom : OmShapes lr rr X.shape.length om) (hn : n ≤ X.shape.length) :
    Cores cs (fun k => (1 :: lr ++ [1]).getD k 0) (fun k => X.shape.getD k 0) := by
  intro mu hmu
  rw [h.len] at hmu
  by_cases h1 : mu < X.shape.length - 1
  · obtain ⟨P, hP, this, -⟩ := h.step mu hmu h1
    refine (orthStep_shape (f := lr.getD mu 0) hP ?_ this).trans ?_
    · cases om with
      | none =>
        have hom : lr = rr := hom
        show rr.getD mu 0 = _
        rw [hom]
      | some om =>
        show (om.getD mu _).shape = _
        exact hom mu h1
    · beta_reduce
      rw [aug_left (by omega), aug_right (by omega)]
  · rw [(h.last mu hmu h1).1]
    beta_reduce
    rw [aug_left (by omega), aug_right' mu]
    rw [List.getD_append_right _ _ _ _ (by omega), List.getD_append_right _ _ _ _ (by omega), hl, hr]

theorem OrthAny.cores {env : Env K} {X : Tensor K} {W : ℕ → List ℕ → ℕ → K} {lr rr : List ℕ}
    {om : Option (List (ND K))} {cs : List (ND K)} {n : ℕ} (h : OrthAny env X W lr rr om cs n)
    (hl : lr.length = X.shape.length - 1) (hr : rr.length = X.shape.length - 1) (hom : OmShapes lr rr X.shape.length om)
    (hn : n ≤ X.shape.length - 1) : OrthCores lr X.shape cs := by
  intro k hk
  rw [h.shape hl hr hom (by omega) k hk]
  have := h.len
  beta_reduce
  rw [aug_left (by omega), aug_left (by omega)]

theorem OrthAny.snoc {env : Env K} {X : Tensor K} {W : ℕ → List ℕ → ℕ → K} {lr rr : List ℕ} (hr : rr.length = X.shape.length - 1)
    {om : Option (List (ND K))} {cs : List (ND K)} {Q P : ND K} {n : ℕ} (h : OrthAny env X W lr rr om cs n)
    (hP : P.shape = [(1 :: lr).getD n 0, X.shape.getD n 0, (rr ++ [1]).getD n 0])
    (h1 : n < X.shape.length - 1 → orthStep env P (om.map fun l => l.getD n (ND.zeros [])) = .ok Q)
    (hv : X.Distinct → n = X.shape.length - 1 → ∀ a < (1 :: lr).getD n 0, ∀ j < X.shape.getD n 0,
        P.get [a, j, 0] = pcL X.shape X.toNumpy.get (coreMats cs) n a [j])
    (hw : X.Distinct → ∀ a < (1 :: lr).getD n 0, ∀ j < X.shape.getD n 0, ∀ b < (rr ++ [1]).getD n 0,
      P.get [a, j, b] = psiCols X.shape W cs n a j b) (hn : n < X.shape.length)
    (h2 : ¬ n < X.shape.length - 1 → Q = P) : OrthAny env X W lr rr om (cs ++ [Q]) (n + 1) := by
  have hlast : (cs ++ [Q]).getD n (ND.zeros []) = Q := by
    rw [List.getD_append_right _ _ _ _ (by rw [h.len]), h.len, Nat.sub_self]; rfl
  refine ⟨by simp [h.len], fun mu hmu hs => ?_, fun mu hmu hs => ?_⟩
  · rcases Nat.lt_succ_iff_lt_or_eq.1 hmu with hm | rfl
    · rw [List.getD_append _ _ _ _ (by rw [h.len]; omega)]
      obtain ⟨P', e1, e2, e3⟩ := h.step mu hm hs
      refine ⟨P', e1, e2, fun hD a ha j hj b hb => ?_⟩
      rw [psiCols_append _ _ _ _ _ _ _ _ (by rw [h.len]; omega)]
      exact e3 hD a ha j hj b hb
    · rw [hlast]
      rw [List.getD_append _ _ _ _ (by omega)] at hP hw
      refine ⟨P, hP, h1 hs, fun hD a ha j hj b hb => ?_⟩
      rw [psiCols_append _ _ _ _ _ _ _ _ (by rw [h.len])]
      exact hw hD a ha j hj b hb
  · rcases Nat.lt_succ_iff_lt_or_eq.1 hmu with hm | rfl
    · rw [List.getD_append _ _ _ _ (by rw [h.len]; omega)]
      refine ⟨(h.last mu hm hs).1, fun hD a ha j hj => ?_⟩
      rw [(h.last mu hm hs).2 hD a ha j hj]
      unfold pcL
      rw [← coreMats_take (cs ++ [Q]) (show mu ≤ cs.length by rw [h.len]; omega), List.take_left]
    · rw [hlast, h2 hs]
      refine ⟨hP, fun hD a ha j hj => ?_⟩
      rw [hv hD (by omega) a ha j hj]
      unfold pcL
      rw [← coreMats_take (cs ++ [P]) (show mu ≤ cs.length by rw [h.len]), List.take_left]

section loop
variable {env : Env K} {X : Tensor K} {r : DRM K} {lr : List ℕ} {rc : List (List (ND K))}
  {om : Option (List (ND K))}

theorem orth_fold_any (hX : X.Valid) (hd : 2 ≤ X.shape.length) (hR : r.AcceptsT X) (hrt : r.transpose = true)
    (hl : lr.length = X.shape.length - 1) (hr : r.rank.reverse.length = X.shape.length - 1)
    (hrc : r.contr env X = .ok rc) (hom : OmShapes lr r.rank.reverse X.shape.length om) :
    ∀ n ≤ X.shape.length, ∀ cs, (List.range n).foldlM (psiOrthStep env X lr r.rank.reverse om rc) [] = .ok cs →
      OrthAny env X (X.rightCols env r) lr r.rank.reverse om cs n
  | 0, _, cs, h => by
    have h' : Except.ok [] = (Except.ok cs : Except PyErr _) := h
    injection h' with h'
    subst h'
    exact ⟨rfl, fun mu hmu => absurd hmu (by omega), fun mu hmu => absurd hmu (by omega)⟩
  | n + 1, hn, cs, h => by
    rw [List.range_succ, List.foldlM_append] at h
    match h1 : (List.range n).foldlM (psiOrthStep env X lr r.rank.reverse om rc) [] with
    | .error e => rw [h1] at h; cases h
    | .ok cs0 =>
      have ih := orth_fold_any hX hd hR hrt hl hr hrc hom n (by omega) cs0 h1
      rw [h1] at h
      have h2 : psiOrthStep env X lr r.rank.reverse om rc cs0 n = .ok cs := by
        have : (psiOrthStep env X lr r.rank.reverse om rc cs0 n >>= fun x => pure x) = .ok cs := h
        rwa [bind_pure] at this
      obtain ⟨P, hP, hv, hw, e⟩ := psiOrthStep_any hX hd hR hrt hl hrc (ih.cores hl hr hom (by omega)) ih.len (by omega) om
      rw [e] at h2
      split at h2
      · next hlt =>
        match h3 : orthStep env P (om.map fun l => l.getD n (ND.zeros [])) with
        | .error e => rw [h3] at h2; cases h2
        | .ok Q =>
          rw [h3] at h2
          have h2' : Except.ok (cs0 ++ [Q]) = (Except.ok cs : Except PyErr _) := h2
          injection h2' with h2'
          subst h2'
          exact ih.snoc hr hP (fun _ => h3) hv hw (by omega) fun h => absurd hlt h
      · next hlt =>
        injection h2 with h2
        subst h2
        exact ih.snoc hr hP (fun h => absurd h hlt) hv hw (by omega) fun _ => rfl

theorem orth_fold_ok_any (hE : LstsqContract env) (hQ : QRContract env) (hX : X.Valid) (hd : 2 ≤ X.shape.length)
    (hR : r.AcceptsT X) (hrt : r.transpose = true)
    (hl : lr.length = X.shape.length - 1) (hr : r.rank.reverse.length = X.shape.length - 1)
    (hrc : r.contr env X = .ok rc) (hom : OmShapes lr r.rank.reverse X.shape.length om)
    (hfit : ∀ mu < X.shape.length - 1, lr.getD mu 0 ≤ (1 :: lr).getD mu 0 * X.shape.getD mu 0) :
    ∀ n ≤ X.shape.length, ∃ cs, (List.range n).foldlM (psiOrthStep env X lr r.rank.reverse om rc) [] = .ok cs
  | 0, _ => ⟨[], rfl⟩
  | n + 1, hn => by
    obtain ⟨cs0, h1⟩ := orth_fold_ok_any hE hQ hX hd hR hrt hl hr hrc hom hfit n (by omega)
    have ih := orth_fold_any hX hd hR hrt hl hr hrc hom n (by omega) cs0 h1
    obtain ⟨P, hP, hv, hw, e⟩ := psiOrthStep_any hX hd hR hrt hl hrc (ih.cores hl hr hom (by omega)) ih.len (by omega) om
    rw [List.range_succ, List.foldlM_append, h1]
    show ∃ cs, (psiOrthStep env X lr r.rank.reverse om rc cs0 n >>= fun x => pure x) = .ok cs
    rw [bind_pure, e]
    split
    · next hlt =>
      rw [List.getD_append _ _ _ _ (by omega)] at hP
      have : ∃ Q, orthStep env P (om.map fun l => l.getD n (ND.zeros [])) = .ok Q := by
        cases om with
        | none =>
          have hom : lr = r.rank.reverse := hom
          have e : orthStep env P none
              = (env.qr (P.reshape [(1 :: lr).getD n 0 * X.shape.getD n 0, r.rank.reverse.getD n 0])).1.reshape?
                [(1 :: lr).getD n 0, X.shape.getD n 0, r.rank.reverse.getD n 0] := by
            unfold orthStep; rw [(dim_of_shape3 hP).1, (dim_of_shape3 hP).2.1, (dim_of_shape3 hP).2.2]
          show ∃ Q, orthStep env _ none = .ok Q
          rw [e]
          exact qrCore_ok hQ.qrShape rfl (by rw [← hom]; exact hfit n hlt)
        | some om =>
          show ∃ Q, orthStep env _ (some (om.getD n _)) = .ok Q
          rw [orthStep_eq hP (hom n hlt)]
          exact qrCore_ok hQ.qrShape (rightMulPinv_shape hE.lstsqShape rfl (hom n hlt)) (hfit n hlt)
      obtain ⟨Q, hQ'⟩ := this
      exact ⟨cs0 ++ [Q], by rw [hQ']; rfl⟩
    · exact ⟨_, rfl⟩

end loop

theorem OrthAny.form {env : Env K} (hE : LstsqContract env) (hQ : QRContract env) {X : Tensor K}
    {W : ℕ → List ℕ → ℕ → K} {lr rr : List ℕ} {om : Option (List (ND K))} {Y : TT K} (hd : 2 ≤ X.shape.length)
    (h : OrthAny env X W lr rr om Y.cores X.shape.length)
    (hl : lr.length = X.shape.length - 1) (hr : rr.length = X.shape.length - 1) (hom : OmShapes lr rr X.shape.length om) :
    Y.Valid ∧ Y.shape = X.shape ∧ Y.rank = lr ∧
      ((∀ n ∈ X.shape, 0 < n) → (∀ r ∈ lr, 0 < r) →
        ∀ mu < X.shape.length - 1, (Y.cores.getD mu (ND.zeros [])).LeftOrthogonal) := by
  obtain ⟨h1, h2, h3⟩ := cores_tt (h.shape hl hr hom le_rfl) (by omega) h.len hl
  refine ⟨h1, h2, h3, fun p1 p2 mu hmu => ?_⟩
  obtain ⟨P, hP, hs, -⟩ := h.step mu (by omega) hmu
  have hpos : 0 < (1 :: lr).getD mu 0 * X.shape.getD mu 0 := by
    have hn : 0 < X.shape.getD mu 0 := by
      rw [getD_eq (by omega)]; exact p1 _ (List.getElem_mem _)
    have hr : 0 < (1 :: lr).getD mu 0 := by
      cases mu with
      | zero => exact Nat.one_pos
      | succ k =>
        rw [List.getD_cons_succ, getD_eq (by omega)]; exact p2 _ (List.getElem_mem _)
    exact Nat.mul_pos hr hn
  cases om with
  | none => exact (orthStep_none hQ hP hpos hs).2.1
  | some om => exact (orthStep_some hE hQ hP (hom mu hmu) hpos hs).2.1

theorem Orthed.any {env : Env K} {X : Tensor K} {Y : TT K} {l r : DRM K} (h : Orthed env X Y l r) (hX : X.Valid) :
    ∃ om : List (ND K), OmShapes l.rank r.rank.reverse X.shape.length (some om) ∧
      OrthAny env X (X.rightCols env r) l.rank r.rank.reverse (some om) Y.cores X.shape.length ∧
      (X.Distinct → ∀ mu < X.shape.length - 1, ∀ a < l.rank.getD mu 0, ∀ b < r.rank.reverse.getD mu 0,
        (om.getD mu (ND.zeros [])).get [a, b]
          = colsOmega X.shape (l.leftMats env) (X.rightCols env r) (mu + 1) a b) := by
  obtain ⟨lc, rc, om, c1, c2, c3, c4⟩ := h.run
  have hd : 2 ≤ X.shape.length := by rw [h.accL.shape]; exact h.accL.wf.two
  obtain ⟨n1, n2⟩ := h.accL.ranks h.accR
  obtain ⟨C, -, hs, -, hC, -⟩ := C35_sum env X l r h.accL h.accR h.dirL h.dirR
  obtain ⟨lc', rc', q1, q2, q3, -⟩ := streaming_parts hs
  rw [c1] at q1
  rw [c2] at q2
  injection q1 with q1
  injection q2 with q2
  subst q1 q2
  rw [c3] at q3
  injection q3 with q3
  subst q3
  exact ⟨_, hC.omega, orth_fold_any (om := some _) hX hd h.accR h.dirR n1 n2 c2 hC.omega _ le_rfl _ c4,
    fun hD => (tensor_psi_cols h.accL h.accR h.dirL h.dirR hD hs).2⟩

theorem Hmted.any {env : Env K} {X : Tensor K} {Y : TT K} {D : DRM K} (h : Hmted env X Y D) (hX : X.Valid) :
    OrthAny env X (X.rightCols env D) D.rank.reverse D.rank.reverse none Y.cores X.shape.length := by
  obtain ⟨rc, c2, c4⟩ := h.run
  have hd : 2 ≤ X.shape.length := by rw [h.acc.shape]; exact h.acc.wf.two
  exact orth_fold_any (om := none) hX hd h.acc h.dir h.ranks h.ranks c2 rfl _ le_rfl _ c4

/-- **C41, form, every format.** The result of `orthogonal_sketch` is a tensor train of the tensor's shape with the
left ranks, all of whose cores but the last are left-orthogonal; for every tensor, lazy sums of any formats included. -/
theorem C41_form_all (env : Env K) (hE : LstsqContract env) (hQ : QRContract env) (X : Tensor K) (lrank rrank : RankArg)
    (kw : SketchKw K) (Y : TT K) (l r : DRM K) (hkw : kw.Good) (hX : X.Valid) (hne : X.NonEmpty)
    (hd : 2 ≤ X.shape.length) (h : orthogonalSketch env X lrank rrank kw = .ok (Y, l, r)) :
    Y.Valid ∧ Y.shape = X.shape ∧ Y.rank = l.rank ∧
      ((∀ n ∈ X.shape, 0 < n) → (∀ r ∈ l.rank, 0 < r) →
        ∀ mu < X.shape.length - 1, (Y.cores.getD mu (ND.zeros [])).LeftOrthogonal) := by
  obtain ⟨hO, -⟩ := orth_inv hkw hX hne hd h
  obtain ⟨n1, n2⟩ := hO.accL.ranks hO.accR
  obtain ⟨om, h1, h2, -⟩ := hO.any hX
  exact h2.form hE hQ hd n1 n2 h1

/-- **C42, form, every format.** The result of `hmt_sketch` is a tensor train of the tensor's shape with the ranks of
the DRM it used, all of whose cores but the last are left-orthogonal. -/
theorem C42_form_all (env : Env K) (hE : LstsqContract env) (hQ : QRContract env) (X : Tensor K) (rank : RankArg)
    (seed : Option ℕ) (kind : Option DRMKind) (drm : Option (DRM K)) (b : Bool) (Y : TT K)
    (hg : ∀ D, drm = some D → D.WF ∧ D.toDRMBase.Full ∧ D.transpose = true) (hX : X.Valid) (hne : X.NonEmpty)
    (hd : 2 ≤ X.shape.length) (h : hmtSketch env X rank seed kind drm b = .ok Y) :
    Y.Valid ∧ Y.shape = X.shape ∧
      (drm = none → Y.rank = trimRanks X.shape (ranksOf rank X.shape.length)) ∧
      (∀ D, drm = some D → Y.rank = D.rank.reverse ∧ rank = .seq D.rank.reverse) ∧
      ((∀ n ∈ X.shape, 0 < n) → (∀ r ∈ Y.rank, 0 < r) →
        ∀ mu < X.shape.length - 1, (Y.cores.getD mu (ND.zeros [])).LeftOrthogonal) := by
  obtain ⟨-, D, h0, hO⟩ := hmt_inv hg hX hne hd h
  obtain ⟨-, -, -, h4⟩ := hmtDRM_inv hg hd h0
  obtain ⟨f1, f2, f3, f4⟩ := (hO.any hX).form hE hQ hd hO.ranks hO.ranks rfl
  refine ⟨f1, f2, fun hn => ?_, fun D' hD' => ?_, by rw [f3]; exact f4⟩
  · rcases h4 with ⟨h4, -⟩ | ⟨-, -, -, -, h4⟩
    · rw [hn] at h4; cases h4
    · rw [f3, h4]
  · rcases h4 with ⟨h4, h5⟩ | ⟨h4, -⟩
    · rw [hD'] at h4; injection h4 with h4; subst h4; exact ⟨f3, h5⟩
    · rw [hD'] at h4; cases h4

theorem orth_general_any {env : Env K} (hE : LstsqContract env) (hQ : QRContract env) {X : Tensor K} {L R : DRM K}
    (hX : X.Valid) (aL : L.AcceptsT X) (aR : R.AcceptsT X) (dL : L.transpose = false) (dR : R.transpose = true)
    (hfit : ∀ mu < X.shape.length - 1, L.rank.getD mu 0 ≤ (1 :: L.rank).getD mu 0 * X.shape.getD mu 0) :
    ∃ C, generalSketch env X (some L) R .orthogonal = .ok C := by
  have hd : 2 ≤ X.shape.length := by rw [aL.shape]; exact aL.wf.two
  obtain ⟨n1, n2⟩ := aL.ranks aR
  obtain ⟨C, -, hs, -, hC, -⟩ := C35_sum env X L R aL aR dL dR
  obtain ⟨lc, rc, q1, q2, q3, -⟩ := streaming_parts hs
  obtain ⟨cs, hcs⟩ := orth_fold_ok_any (om := some _) hE hQ hX hd aR dR n1 n2 q2 hC.omega hfit X.shape.length le_rfl
  refine ⟨Container.ofCores cs C.omega, ?_⟩
  unfold generalSketch
  simp only [q1, q2, q3, Except.andThen]
  unfold psisOrth
  rw [hcs]

theorem hmt_general_any {env : Env K} (hE : LstsqContract env) (hQ : QRContract env) {X : Tensor K} {R : DRM K}
    (hX : X.Valid) (aR : R.AcceptsT X) (dR : R.transpose = true)
    (hfit : ∀ mu < X.shape.length - 1,
      R.rank.reverse.getD mu 0 ≤ (1 :: R.rank.reverse).getD mu 0 * X.shape.getD mu 0) :
    ∃ C, generalSketch env X none R .hmt = .ok C := by
  have hd : 2 ≤ X.shape.length := by rw [aR.shape]; exact aR.wf.two
  have hr : R.rank.reverse.length = X.shape.length - 1 := by
    rw [List.length_reverse, aR.shape]; exact aR.wf.rankLen
  obtain ⟨w1, w2⟩ := orth_wf (K := K) (cores := []) hd hr (fun k hk => absurd hk (by simp)) (by simp)
  obtain ⟨C, -, hs, -⟩ := C35_sum env X _ R (acceptsT_of w1 w2 hX rfl (fun t _ => by cases t <;> rfl)) aR rfl dR
  obtain ⟨lc, rc, q1, q2, -⟩ := streaming_parts hs
  obtain ⟨cs, hcs⟩ := orth_fold_ok_any (om := none) hE hQ hX hd aR dR hr hr q2 rfl hfit X.shape.length le_rfl
  refine ⟨Container.ofCores cs [], ?_⟩
  unfold generalSketch
  simp only [q2, Except.andThen]
  unfold psisOrth
  rw [show R.T.rank = R.rank.reverse from rfl, hcs]

/-- **C41, success with supplied DRMs, every format.** -/
theorem C41_success_supplied_all (env : Env K) (hE : LstsqContract env) (hQ : QRContract env) (X : Tensor K)
    (l r : DRM K) (seed : Option ℕ) (lt rt : Option DRMKind) (hX : X.Valid)
    (hl : l.AcceptsT X) (hr : r.AcceptsT X) (hlt : l.transpose = false)
    (hrt : r.transpose = true) (ho : ∀ k < X.shape.length - 1, l.rank.getD k 0 < r.rank.reverse.getD k 0)
    (hfit : ∀ mu < X.shape.length - 1, l.rank.getD mu 0 ≤ (1 :: l.rank).getD mu 0 * X.shape.getD mu 0) :
    ∃ Y, orthogonalSketch env X (.seq l.rank) (.seq r.rank.reverse) ⟨seed, lt, rt, some l, some r⟩ = .ok (Y, l, r) := by
  obtain ⟨n1, n2⟩ := hl.ranks hr
  have hd : 2 ≤ X.shape.length := by rw [hl.shape]; exact hl.wf.two
  obtain ⟨C, hC⟩ := orth_general_any hE hQ hX hl hr hlt hrt hfit
  unfold orthogonalSketch
  have e : ranksLess (.seq l.rank) (.seq r.rank.reverse) = .ok true := by
    rw [ranksLess_eq (a := .seq l.rank) (b := .seq r.rank.reverse) hd n1 n2]
    congr 1
    exact decide_eq_true ho
  rw [e]
  simp only [Except.andThen, leftDRM, rightDRM, if_true, hC]
  exact ⟨_, rfl⟩

/-- **C42, success with a supplied DRM, every format.** -/
theorem C42_success_supplied_all (env : Env K) (hE : LstsqContract env) (hQ : QRContract env) (X : Tensor K)
    (D : DRM K) (seed : Option ℕ) (kind : Option DRMKind) (hX : X.Valid) (hD : D.AcceptsT X) (ht : D.transpose = true)
    (hfit : ∀ mu < X.shape.length - 1,
      D.rank.reverse.getD mu 0 ≤ (1 :: D.rank.reverse).getD mu 0 * X.shape.getD mu 0) :
    ∃ Y, hmtSketch env X (.seq D.rank.reverse) seed kind (some D) = .ok Y := by
  obtain ⟨C, hC⟩ := hmt_general_any hE hQ hX hD ht hfit
  unfold hmtSketch
  simp only [Except.andThen, hmtDRM, if_true, hC]
  exact ⟨_, rfl⟩

/-- **C41, success, every format.** With freshly made DRMs of classes that support the tensor's formats, positive mode
sizes and ranks and left ranks below the right ones, `orthogonal_sketch` succeeds. -/
theorem C41_success_all (env : Env K) (hE : LstsqContract env) (hQ : QRContract env) (X : Tensor K)
    (lrank rrank : RankArg) (seed : Option ℕ) (lt rt : Option DRMKind) (hX : X.Valid) (hd : 2 ≤ X.shape.length)
    (hl : (ranksOf lrank X.shape.length).length = X.shape.length - 1)
    (hr : (ranksOf rrank X.shape.length).length = X.shape.length - 1)
    (ho : ∀ k < X.shape.length - 1, (ranksOf lrank X.shape.length).getD k 0 < (ranksOf rrank X.shape.length).getD k 0)
    (p1 : ∀ n ∈ X.shape, 0 < n) (p2 : ∀ r ∈ ranksOf lrank X.shape.length, 0 < r)
    (hseed : seed.getD 0 < 2 ^ 32)
    (hsup : ∀ t ∈ X.summands, ∀ D : DRMData K, (D.kind = lt.getD (rt.getD .tensorTrain) ∨
      D.kind = rt.getD (lt.getD .tensorTrain)) → D.supports t = true) :
    ∃ Y l r, orthogonalSketch env X lrank rrank { seed := seed, leftType := lt, rightType := rt } = .ok (Y, l, r) := by
  unfold orthogonalSketch
  rw [ranksLess_eq hd hl hr, decide_eq_true ho]
  simp only [Except.andThen]
  rw [if_neg (by decide)]
  have hfs : seed.getD (env.freshSeed % 2 ^ 32) < 2 ^ 32 := by
    cases seed with
    | none => exact Nat.mod_lt _ (by norm_num)
    | some s => exact hseed
  generalize seed.getD (env.freshSeed % 2 ^ 32) = sd at hfs
  simp only [leftDRM, rightDRM, process_ok true (by omega) hl, process_ok false (by omega) hr]
  have hl' : (ranksOf lrank X.shape.length).length + 1 = X.shape.length := by omega
  have ht := trimRanks_length X.shape _ hl'
  obtain ⟨L, h1, h2, h3, h4, h5, h6, -, h8⟩ := C29_new env (lt.getD (rt.getD .tensorTrain))
    (.seq (trimRanks X.shape (ranksOf lrank X.shape.length))) X.shape false
    (some sd) hd (by show (trimRanks _ _).length = _; omega) (fun _ => hfs)
  obtain ⟨R, k1, k2, k3, k4, k5, k6, -, k8⟩ := C29_new env (rt.getD (lt.getD .tensorTrain))
    (.seq (ranksOf rrank X.shape.length)) X.shape true
    (some (((sd : ℤ) + env.strHash X.shape.length) % 2 ^ 32).toNat) hd hr (fun _ => by exact right_seed_lt sd _)
  have aL := acceptsT_of h2 h3 hX h4.symm fun t ht => hsup t ht _ (.inl h6)
  have aR := acceptsT_of k2 k3 hX k4.symm fun t ht => hsup t ht _ (.inr k6)
  have hLr : L.rank = trimRanks X.shape (ranksOf lrank X.shape.length) := by rw [h8]; rfl
  obtain ⟨C, e⟩ := orth_general_any hE hQ hX aL aR h5 k5 fun mu hmu => by
    rw [hLr]; exact trim_fit hl' p1 p2 mu hmu
  simp only [if_true, Bool.false_eq_true, if_false, h1, k1, e]
  exact ⟨_, _, _, rfl⟩

/-- **C42, success, every format.** -/
theorem C42_success_all (env : Env K) (hE : LstsqContract env) (hQ : QRContract env) (X : Tensor K) (rank : RankArg)
    (seed : Option ℕ) (kind : Option DRMKind) (hX : X.Valid) (hd : 2 ≤ X.shape.length)
    (hl : (ranksOf rank X.shape.length).length = X.shape.length - 1)
    (p1 : ∀ n ∈ X.shape, 0 < n) (p2 : ∀ r ∈ ranksOf rank X.shape.length, 0 < r)
    (hseed : seed.getD 0 < 2 ^ 32)
    (hsup : ∀ t ∈ X.summands, ∀ D : DRMData K, D.kind = kind.getD .tensorTrain → D.supports t = true) :
    ∃ Y, hmtSketch env X rank seed kind = .ok Y := by
  unfold hmtSketch
  have hfs : seed.getD (env.freshSeed % 2 ^ 32) < 2 ^ 32 := by
    cases seed with
    | none => exact Nat.mod_lt _ (by norm_num)
    | some s => exact hseed
  generalize seed.getD (env.freshSeed % 2 ^ 32) = sd at hfs
  simp only [hmtDRM, process_ok true (by omega) hl, if_true]
  have hl' : (ranksOf rank X.shape.length).length + 1 = X.shape.length := by omega
  have ht := trimRanks_length X.shape _ hl'
  obtain ⟨R, k1, k2, k3, k4, k5, k6, -, k8⟩ := C29_new env (kind.getD .tensorTrain)
    (.seq (trimRanks X.shape (ranksOf rank X.shape.length))) X.shape true (some sd) hd
    (by show (trimRanks _ _).length = _; omega) (fun _ => hfs)
  have aR := acceptsT_of k2 k3 hX k4.symm fun t ht => hsup t ht _ k6
  have hLr : R.rank.reverse = trimRanks X.shape (ranksOf rank X.shape.length) := by
    rw [k8, if_pos rfl, List.reverse_reverse]; rfl
  obtain ⟨C, e⟩ := hmt_general_any hE hQ hX aR k5 fun mu hmu => by
    rw [hLr]; exact trim_fit hl' p1 p2 mu hmu
  rw [k1]
  simp only [Except.andThen, e]
  exact ⟨_, rfl⟩

end

/-! ## C61 -/

theorem OrthAny.projects {env : Env ℝ} (hE : LstsqContract env) (hQ : QRContract env) {X : Tensor ℝ}
    {W : ℕ → List ℕ → ℕ → ℝ} {lr rr : List ℕ}
    {om : Option (List (ND ℝ))} {Y : TT ℝ} (hX : X.Valid) (hD : X.Distinct) (hd : 2 ≤ X.shape.length)
    (h : OrthAny env X W lr rr om Y.cores X.shape.length)
    (hl : lr.length = X.shape.length - 1) (hr : rr.length = X.shape.length - 1) (hom : OmShapes lr rr X.shape.length om)
    (p1 : ∀ n ∈ X.shape, 0 < n) (p2 : ∀ r ∈ lr, 0 < r) : ProjectsOntoFrame X.toNumpy Y := by
  have hsh := Tensor.toNumpy_shape hX
  obtain ⟨-, -, -, ho⟩ := h.form hE hQ hd hl hr hom
  have ho := ho p1 p2
  have hC := h.shape hl hr hom le_rfl
  have hv := (h.last (X.shape.length - 1) (by omega) (by omega)).2 hD
  have hlen := h.len
  rw [← hsh] at hd hl ho hC hv hlen
  refine frame_projects (by omega) hl hlen hC ho fun a ha j hj => hv a ?_ j hj
  rwa [aug_left (by omega)] at ha

/-- **C61, `orthogonal_sketch`, every format**, lazy sums of any formats included. -/
theorem C61_orth_all (env : Env ℝ) (hE : LstsqContract env) (hQ : QRContract env) (X : Tensor ℝ) (lrank rrank : RankArg)
    (kw : SketchKw ℝ) (Y : TT ℝ) (l r : DRM ℝ) (hkw : kw.Good) (hX : X.Valid) (hne : X.NonEmpty) (hD : X.Distinct)
    (hd : 2 ≤ X.shape.length) (p1 : ∀ n ∈ X.shape, 0 < n) (p2 : ∀ r ∈ l.rank, 0 < r)
    (h : orthogonalSketch env X lrank rrank kw = .ok (Y, l, r)) : ProjectsOntoFrame X.toNumpy Y := by
  obtain ⟨hO, -⟩ := orth_inv hkw hX hne hd h
  obtain ⟨n1, n2⟩ := hO.accL.ranks hO.accR
  obtain ⟨om, h1, h2, -⟩ := hO.any hX
  exact h2.projects hE hQ hX hD hd n1 n2 h1 p1 p2

/-- **C61, `hmt_sketch`, every format.** -/
theorem C61_hmt_all (env : Env ℝ) (hE : LstsqContract env) (hQ : QRContract env) (X : Tensor ℝ) (rank : RankArg)
    (seed : Option ℕ) (kind : Option DRMKind) (drm : Option (DRM ℝ)) (b : Bool) (Y : TT ℝ)
    (hg : ∀ D, drm = some D → D.WF ∧ D.toDRMBase.Full ∧ D.transpose = true) (hX : X.Valid) (hne : X.NonEmpty)
    (hD : X.Distinct) (hd : 2 ≤ X.shape.length) (p1 : ∀ n ∈ X.shape, 0 < n) (p2 : ∀ r ∈ Y.rank, 0 < r)
    (h : hmtSketch env X rank seed kind drm b = .ok Y) : ProjectsOntoFrame X.toNumpy Y := by
  obtain ⟨-, D, h0, hO⟩ := hmt_inv hg hX hne hd h
  obtain ⟨-, -, f3, -⟩ := (hO.any hX).form hE hQ hd hO.ranks hO.ranks rfl
  rw [f3] at p2
  exact (hO.any hX).projects hE hQ hX hD hd hO.ranks hO.ranks rfl p1 p2

/-! ### Examples -/

/-- A lazy sum outside the formats of `C41_form`: a Tucker tensor with three modes and a sparse tensor in which an
index is stored twice. -/
def y41 : Tensor ℝ := .sum ⟨[2, 3, 2], [.tucker ⟨[ones [2, 2], ones [1, 3], ones [1, 2]], ones [2, 1, 1]⟩,
  .sparse ⟨[2, 3, 2], [([1, 2, 0], 3), ([1, 2, 0], 4)]⟩]⟩

theorem y41_valid : y41.Valid := by
  intro t ht
  simp only [List.mem_cons, List.not_mem_nil, or_false] at ht
  rcases ht with rfl | rfl
  · refine ⟨⟨fun U hU => ?_, rfl⟩, rfl⟩
    simp only [List.mem_cons, List.not_mem_nil, or_false] at hU
    rcases hU with rfl | rfl | rfl
    · exact ⟨2, 2, rfl⟩
    · exact ⟨1, 3, rfl⟩
    · exact ⟨1, 2, rfl⟩
  · refine ⟨fun e he => ?_, rfl⟩
    simp only [List.mem_cons, List.not_mem_nil, or_false] at he
    rcases he with rfl | rfl <;> simp

/-- `C41_success_all`, `C41_form_all`, `C42_success_all` and `C42_form_all` apply. -/
example : (∃ Y l r, orthogonalSketch env8 y41 (.int 2) (.int 3) {} = .ok (Y, l, r) ∧ Y.shape = [2, 3, 2] ∧
      Y.rank = l.rank) ∧
    ∃ Y, hmtSketch env8 y41 (.int 2) none none = .ok Y ∧ Y.rank = [2, 2] ∧
      ∀ mu < 2, (Y.cores.getD mu (ND.zeros [])).LeftOrthogonal := by
  have hE : LstsqContract env8 := lstsqChoice_contract rfl
  have hQ : QRContract env8 := qrChoice_contract rfl
  have p1 : ∀ n ∈ y41.shape, 0 < n := by
    show ∀ n ∈ [2, 3, 2], 0 < n
    decide
  constructor
  · obtain ⟨Y, l, r, h⟩ := C41_success_all env8 hE hQ y41 (.int 2) (.int 3) none none none y41_valid (by decide) rfl rfl
      (by decide) p1 (by decide) (by decide) fun t _ D h => supports_tt D (by rcases h with h | h <;> exact h) t
    obtain ⟨-, h2, h3, -⟩ := C41_form_all env8 hE hQ y41 _ _ _ Y l r (SketchKw.good_none none none none) y41_valid
      (List.cons_ne_nil _ _) (by decide) h
    exact ⟨Y, l, r, h, h2, h3⟩
  · obtain ⟨Y, h⟩ := C42_success_all env8 hE hQ y41 (.int 2) none none y41_valid (by decide) rfl p1 (by decide)
      (by decide) fun t _ D h => supports_tt D h t
    obtain ⟨-, -, h3, -, h4⟩ := C42_form_all env8 hE hQ y41 _ _ _ none false Y (by simp) y41_valid
      (List.cons_ne_nil _ _) (by decide) h
    have h3 : Y.rank = [2, 2] := h3 rfl
    exact ⟨Y, h, h3, h4 p1 (by rw [h3]; decide)⟩

/-- A lazy sum of a Tucker tensor and a dense array, both with three modes. -/
def y61 : Tensor ℝ := .sum ⟨[2, 3, 2], [.tucker ⟨[ones [2, 2], ones [1, 3], ones [1, 2]], ones [2, 1, 1]⟩,
  .dense (ones [2, 3, 2])]⟩

theorem y61_valid : y61.Valid := by
  intro t ht
  simp only [List.mem_cons, List.not_mem_nil, or_false] at ht
  rcases ht with rfl | rfl
  · refine ⟨⟨fun U hU => ?_, rfl⟩, rfl⟩
    simp only [List.mem_cons, List.not_mem_nil, or_false] at hU
    rcases hU with rfl | rfl | rfl
    · exact ⟨2, 2, rfl⟩
    · exact ⟨1, 3, rfl⟩
    · exact ⟨1, 2, rfl⟩
  · exact ⟨trivial, rfl⟩

theorem y61_distinct : y61.Distinct := by
  intro t ht
  simp only [List.mem_cons, List.not_mem_nil, or_false] at ht
  rcases ht with rfl | rfl <;> trivial

/-- `C61_hmt_all` applies. -/
example : ∃ Y, hmtSketch env8 y61 (.int 2) none none = .ok Y ∧ ProjectsOntoFrame y61.toNumpy Y := by
  have hE : LstsqContract env8 := lstsqChoice_contract rfl
  have hQ : QRContract env8 := qrChoice_contract rfl
  have p1 : ∀ n ∈ y61.shape, 0 < n := by
    show ∀ n ∈ [2, 3, 2], 0 < n
    decide
  obtain ⟨Y, h⟩ := C42_success_all env8 hE hQ y61 (.int 2) none none y61_valid (by decide) rfl p1 (by decide)
    (by decide) fun t _ D h => supports_tt D h t
  obtain ⟨-, -, h3, -, h4⟩ := C42_form_all env8 hE hQ y61 _ _ _ none false Y (by simp) y61_valid
    (List.cons_ne_nil _ _) (by decide) h
  have h3 : Y.rank = [2, 2] := h3 rfl
  exact ⟨Y, h, C61_hmt_all env8 hE hQ y61 _ _ _ none false Y (by simp) y61_valid (List.cons_ne_nil _ _) y61_distinct
    (by decide) p1 (by rw [h3]; decide) h⟩

end TTS.Props
