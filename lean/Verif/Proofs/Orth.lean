import Verif.Proofs.Assemble
import Verif.Proofs.Stream

/-! The methods `orthogonal` and `hmt` of `general_sketch`. -/

namespace TTS

open Finset

variable {K : Type*}

/-! ### the contraction with the cores added so far -/

section
variable [CommRing K]

theorem ttScan_take (step : ℕ → ND K → ND K → ND K) : ∀ (Cs pad : List (ND K)) (mu : ℕ) (P : ND K),
    ttScan step mu P Cs = (ttScan step mu P (Cs ++ pad)).take (Cs.length + 1)
  | [], pad, mu, P => by cases pad <;> simp [ttScan]
  | C :: Cs, pad, mu, P => by
    simp only [ttScan, List.cons_append, List.length_cons, List.take_succ_cons]
    rw [← ttScan_take step Cs pad]

theorem ttRun_take (first : ND K → ND K) (step : ℕ → ND K → ND K → ND K) (cores pad : List (ND K))
    (h : cores ≠ []) : ttRun first step cores = (ttRun first step (cores ++ pad)).take cores.length := by
  match cores, h with
  | C :: Cs, _ => exact ttScan_take step Cs pad _ _

theorem sliceCols_take (B : DRMBase) (l : List (ND K)) (n : ℕ) :
    B.sliceCols (l.take n) = (B.sliceCols l).take n := by
  unfold DRMBase.sliceCols
  rw [← List.map_take]
  congr 1
  apply List.ext_getElem?
  intro i
  simp only [List.getElem?_zipIdx, List.getElem?_take]
  split_ifs <;> simp

/-- Adding cores behind does not change the contractions with the first ones. -/
theorem orth_sketch_take (env : Env K) (lr sh : List ℕ) (cores pad : List (ND K)) (h : cores ≠ []) (t : Leaf K) :
    (orthDRM lr sh cores).sketch env t
      = ((orthDRM lr sh (cores ++ pad)).sketch env t).map (List.take cores.length) := by
  unfold DRM.sketch
  have hs1 : (orthDRM lr sh cores).data.supports t = true := by cases t <;> rfl
  have hs2 : (orthDRM lr sh (cores ++ pad)).data.supports t = true := by cases t <;> rfl
  rw [hs1, hs2]
  by_cases h2 : sh ≠ t.shape
  · show (if true = false then _ else if sh ≠ t.shape then _ else _)
      = Except.map _ (if true = false then _ else if sh ≠ t.shape then _ else _)
    rw [if_neg (show ¬ (true = false) by decide), if_neg (show ¬ (true = false) by decide), if_pos h2, if_pos h2]; rfl
  · show (if true = false then _ else if sh ≠ t.shape then _ else if false = true then _
        else (orthDRM lr sh cores).sketchOwn env t)
      = Except.map _ (if true = false then _ else if sh ≠ t.shape then _ else if false = true then _
        else (orthDRM lr sh (cores ++ pad)).sketchOwn env t)
    rw [if_neg (show ¬ (true = false) by decide), if_neg (show ¬ (true = false) by decide), if_neg h2, if_neg h2, if_neg (show ¬ (false = true) by decide), if_neg (show ¬ (false = true) by decide)]
    have hh : (cores ++ pad).headD (ND.zeros []) = cores.headD (ND.zeros []) := by
      match cores, h with
      | C :: Cs, _ => rfl
    cases t with
    | sparse X =>
      show Except.ok (((orthDRM lr sh cores).sliceCols (ttSketchSparse cores X)).map ND.matT)
        = Except.ok (List.take _ (((orthDRM lr sh cores).sliceCols (ttSketchSparse (cores ++ pad) X)).map ND.matT))
      rw [ttSketchSparse, ttRun_take _ _ cores pad h, sliceCols_take, List.map_take]; rfl
    | tt X =>
      show Except.ok ((orthDRM lr sh cores).sliceCols (ttSketchTT cores X))
        = Except.ok (List.take _ ((orthDRM lr sh cores).sliceCols (ttSketchTT (cores ++ pad) X)))
      rw [ttSketchTT, ttRun_take _ _ cores pad h, sliceCols_take]; rfl
    | cp X =>
      show Except.ok ((orthDRM lr sh cores).sliceCols (ttSketchCP cores X))
        = Except.ok (List.take _ ((orthDRM lr sh cores).sliceCols (ttSketchCP (cores ++ pad) X)))
      rw [ttSketchCP, ttRun_take _ _ cores pad h, sliceCols_take]; rfl
    | dense X =>
      show Except.ok ((ttSketchDense cores).map ND.matT)
        = Except.ok (List.take _ ((ttSketchDense (cores ++ pad)).map ND.matT))
      rw [ttSketchDense, ttRun_take _ _ cores pad h, List.map_take]; rfl
    | tucker X =>
      show (if tuckerReshapeOk cores ((orthDRM lr sh cores).rank.getD 0 0) X
          then Except.ok (ttSketchTucker cores ((orthDRM lr sh cores).rank.getD 0 0) X) else _)
        = Except.map _ (if tuckerReshapeOk (cores ++ pad) ((orthDRM lr sh cores).rank.getD 0 0) X
          then Except.ok (ttSketchTucker (cores ++ pad) ((orthDRM lr sh cores).rank.getD 0 0) X) else _)
      have hiff : tuckerReshapeOk (cores ++ pad) ((orthDRM lr sh cores).rank.getD 0 0) X
          ↔ tuckerReshapeOk cores ((orthDRM lr sh cores).rank.getD 0 0) X := by
        unfold tuckerReshapeOk; rw [hh]
      by_cases h3 : tuckerReshapeOk cores ((orthDRM lr sh cores).rank.getD 0 0) X
      · rw [if_pos h3, if_pos (hiff.2 h3), ttSketchTucker, ttRun_take _ _ cores pad h]; rfl
      · rw [if_neg h3, if_neg (fun h => h3 (hiff.1 h))]; rfl

theorem mapM_map_except {α β γ ε : Type*} (f : α → Except ε β) (g : β → γ) : ∀ l : List α,
    l.mapM (fun x => (f x).map g) = (l.mapM f).map (List.map g)
  | [] => rfl
  | x :: l => by
    rw [List.mapM_cons, List.mapM_cons, mapM_map_except f g l]
    cases f x with
    | error e => rfl
    | ok b =>
      cases l.mapM f with
      | error e => rfl
      | ok r => rfl

theorem orth_contr_take (env : Env K) (lr sh : List ℕ) (cores pad : List (ND K)) (h : cores ≠ []) (X : Tensor K) :
    (orthDRM lr sh cores).contr env X
      = ((orthDRM lr sh (cores ++ pad)).contr env X).map (List.map (List.take cores.length)) := by
  cases X with
  | leaf X =>
    show Except.map _ ((orthDRM lr sh cores).sketch env X) = Except.map _ (Except.map _ _)
    rw [orth_sketch_take env lr sh cores pad h]
    cases (orthDRM lr sh (cores ++ pad)).sketch env X <;> rfl
  | sum X =>
    unfold DRM.contr
    have hs : (X.tensors.all fun t => (orthDRM lr sh cores).data.supports t)
        = X.tensors.all fun t => (orthDRM lr sh (cores ++ pad)).data.supports t := by
      congr 1
    simp only [hs]
    split_ifs
    · rw [← mapM_map_except]
      congr 1
      funext t
      exact orth_sketch_take env lr sh cores pad h t
    · rfl

theorem pick_take (c : List (List (ND K))) (n k : ℕ) (hk : k < n) : pick (c.map (List.take n)) k = pick c k := by
  unfold pick
  rw [List.map_map]
  refine List.map_congr_left fun l _ => ?_
  simp only [Function.comp, List.getD_eq_getElem?_getD, List.getElem?_take, if_pos hk]

/-! ### the matrices belonging to the cores -/

/-- The contraction matrices of the cores built so far. -/
def coreMats (cores : List (ND K)) : Mats K := fun k p a => if k = 0 then 1 else ttVal (cores.take k) p 0 a

/-- `cores` filled up with zero cores. -/
def padCores (lr sh : List ℕ) (cores : List (ND K)) : List (ND K) :=
  cores ++ ((List.range (sh.length - 1)).drop cores.length).map fun k =>
    ND.zeros [(1 :: lr).getD k 0, sh.getD k 0, lr.getD k 0]

theorem padCores_length {lr sh : List ℕ} {cores : List (ND K)} (h : cores.length ≤ sh.length - 1) :
    (padCores lr sh cores).length = sh.length - 1 := by
  simp [padCores]; omega

theorem orth_rank {lr sh : List ℕ} (hl : lr.length = sh.length - 1) (cores : List (ND K)) :
    (orthDRM lr sh cores).rank = lr := by
  show List.zipWith (fun r1 r2 => r2 - r1) (List.replicate (sh.length - 1) 0) lr = lr
  rw [← hl]
  clear hl
  induction lr with
  | nil => rfl
  | cons a l ih => simp [List.replicate_succ, ih]

/-- The first cores of a left orthogonalisation have the shapes of a DRM with ranks `lr`. -/
def OrthCores (lr sh : List ℕ) (cores : List (ND K)) : Prop :=
  Cores cores (fun k => (1 :: lr).getD k 0) fun k => sh.getD k 0

theorem orth_wf {lr sh : List ℕ} (hd : 2 ≤ sh.length) (hl : lr.length = sh.length - 1) {cores : List (ND K)}
    (hc : OrthCores lr sh cores) (hn : cores.length ≤ sh.length - 1) :
    (orthDRM lr sh (padCores lr sh cores)).WF ∧ (orthDRM lr sh (padCores lr sh cores)).toDRMBase.Full := by
  have hf : (orthDRM lr sh (padCores lr sh cores)).toDRMBase.Full := by
    intro k hk
    exact ⟨replicate_getD _ _ _ hk, rfl⟩
  refine ⟨⟨hd, by simp [orthDRM], hl, hl, rfl, ?_, fun k _ => le_rfl, ?_⟩, hf⟩
  · intro k hk
    rw [(hf k hk).1]; exact Nat.zero_le _
  · show (padCores lr sh cores).length = sh.length - 1 ∧ ∀ k < sh.length - 1, _
    refine ⟨padCores_length hn, fun k hk => ?_⟩
    show _ = [(1 :: lr).getD k 0, sh.getD k 0, lr.getD k 0]
    by_cases h : k < cores.length
    · unfold padCores
      rw [List.getD_append _ _ _ _ h]
      exact hc k h
    · unfold padCores
      rw [List.getD_append_right _ _ _ _ (by omega), getD_map_lt _ _ _ (by simp; omega) 0]
      have : ((List.range (sh.length - 1)).drop cores.length).getD (k - cores.length) 0 = k := by
        rw [getD_eq (by simp; omega)]; simp; omega
      rw [this]; rfl

theorem orth_leftMats (env : Env K) {lr sh : List ℕ} {cores : List (ND K)} {k : ℕ} (hk : k ≤ cores.length)
    (hn : cores.length ≤ sh.length - 1) :
    (orthDRM lr sh (padCores lr sh cores)).leftMats env k = coreMats cores k := by
  funext p a
  unfold DRM.leftMats coreMats
  split_ifs with h0
  · rfl
  · show ttVal ((padCores lr sh cores).take (k - 1 + 1)) p 0 ((List.replicate (sh.length - 1) 0).getD (k - 1) 0 + a) = _
    rw [replicate_getD _ _ _ (by omega), Nat.sub_add_cancel (by omega), zero_add]
    unfold padCores
    rw [List.take_append_of_le_length hk]

/-- `X` is sketched by the right matrices `R`, whatever full tensor train is used on the left. -/
def StreamsWith (env : Env K) (X : Tensor K) (r : DRM K) (R : Mats K) : Prop :=
  ∀ l : DRM K, l.AcceptsT X → l.transpose = false →
    generalSketch env X (some l) r .streaming
      = .ok (sketchOf X.shape X.toNumpy.get (l.leftMats env) R l.rank r.rank.reverse)

/-- The Psi core before orthogonalisation. -/
def psiOf (sh : List ℕ) (f : List ℕ → K) (R : Mats K) (lr rr : List ℕ) (cores : List (ND K)) (mu : ℕ) : ND K :=
  ND.ofFn [(1 :: lr).getD mu 0, sh.getD mu 0, (rr ++ [1]).getD mu 0] fun i =>
    psiSpec sh f (coreMats cores) R mu (i.getD 0 0) (i.getD 1 0) (i.getD 2 0)

theorem psiOf_shape (sh : List ℕ) (f : List ℕ → K) (R : Mats K) (lr rr : List ℕ) (cores : List (ND K)) (mu : ℕ) :
    (psiOf sh f R lr rr cores mu).shape = [(1 :: lr).getD mu 0, sh.getD mu 0, (rr ++ [1]).getD mu 0] := rfl

theorem streaming_parts {env : Env K} {X : Tensor K} {l r : DRM K} {C : Container K}
    (h : generalSketch env X (some l) r .streaming = .ok C) :
    ∃ lc rc, l.contr env X = .ok lc ∧ r.contr env X = .ok rc ∧
      omegas X l.rank r.rank.reverse lc rc = .ok C.omega ∧
      C.psi.length = X.shape.length ∧ ∀ mu < X.shape.length,
        psiAt X l.rank r.rank.reverse rc mu (pick lc (mu - 1)) = .ok (C.psi.getD mu (ND.zeros [])) := by
  unfold generalSketch at h
  obtain ⟨lc, h1, h⟩ := Props.andThen_ok h
  obtain ⟨rc, h2, h⟩ := Props.andThen_ok h
  obtain ⟨om, h3, h⟩ := Props.andThen_ok h
  obtain ⟨psi, h4, h⟩ := Props.andThen_ok h
  injection h with h
  subst h
  obtain ⟨a1, a2⟩ := mapM_ok_iff h4
  rw [List.length_range] at a1
  refine ⟨lc, rc, h1, h2, h3, a1, fun mu hmu => ?_⟩
  have := a2 mu (by simpa using hmu) (by omega)
  rw [List.getElem_range] at this
  rw [this]
  show _ = Except.ok (psi.getD mu _)
  rw [getD_eq (by omega)]

theorem psiAt_zero (X : Tensor K) (lr rr : List ℕ) (rc : List (List (ND K))) (a b : List (ND K)) :
    psiAt X lr rr rc 0 a = psiAt X lr rr rc 0 b := rfl

/-- One step of the loop, with the Psi core in closed form. -/
theorem psiOrthStep_eq {env : Env K} {X : Tensor K} {r : DRM K} {R : Mats K} (hX : X.Valid)
    (hd : 2 ≤ X.shape.length)
    (hS : StreamsWith env X r R) {lr : List ℕ} (hl : lr.length = X.shape.length - 1)
    {rc : List (List (ND K))} (hrc : r.contr env X = .ok rc)
    {cores : List (ND K)} (hc : OrthCores lr X.shape cores) {mu : ℕ} (hn : cores.length = mu)
    (hmu : mu < X.shape.length) (om : Option (List (ND K))) :
    psiOrthStep env X lr r.rank.reverse om rc cores mu
      = if mu < X.shape.length - 1 then
          (orthStep env (psiOf X.shape X.toNumpy.get R lr r.rank.reverse cores mu)
            (om.map fun l => l.getD mu (ND.zeros []))).map fun Q => cores ++ [Q]
        else .ok (cores ++ [psiOf X.shape X.toNumpy.get R lr r.rank.reverse cores mu]) := by
  obtain ⟨w1, w2⟩ := orth_wf hd hl hc (by omega)
  have hacc := acceptsT_of w1 w2 hX rfl (fun t _ => by cases t <;> rfl)
  have hs := hS _ hacc rfl
  rw [orth_rank hl] at hs
  obtain ⟨lc, rc', p1, p2, -, p4, p5⟩ := streaming_parts hs
  rw [orth_rank hl] at p5
  rw [hrc] at p2
  injection p2 with p2
  subst p2
  have key : ∀ lc', (if 0 < mu then (orthDRM lr X.shape cores).contr env X else .ok []) = .ok lc' →
      psiAt X lr r.rank.reverse rc mu (pick lc' (mu - 1))
        = .ok (psiOf X.shape X.toNumpy.get R lr r.rank.reverse cores mu) := by
    intro lc' h'
    have e : psiAt X lr r.rank.reverse rc mu (pick lc' (mu - 1)) = psiAt X lr r.rank.reverse rc mu (pick lc (mu - 1)) := by
      rcases Nat.eq_zero_or_pos mu with h0 | h0
      · subst h0; rfl
      · rw [if_pos h0] at h'
        have hne : cores ≠ [] := by intro h; rw [h] at hn; simp at hn; omega
        rw [orth_contr_take env lr X.shape cores _ hne] at h'
        unfold padCores at p1
        rw [p1] at h'
        have h'' : Except.ok (lc.map (List.take cores.length)) = (Except.ok lc' : Except PyErr _) := h'
        injection h'' with h''
        rw [← h'', pick_take _ _ _ (by omega)]
    rw [e, p5 mu hmu]
    congr 1
    show ((List.range X.shape.length).map _).getD mu _ = _
    rw [getD_map_range _ _ _ _ hmu]
    unfold psiOf psiSpec
    rw [orth_leftMats env (by omega) (by omega)]
  unfold psiOrthStep
  match h' : (if 0 < mu then (orthDRM lr X.shape cores).contr env X else .ok []) with
  | .error e =>
    exfalso
    rcases Nat.eq_zero_or_pos mu with h0 | h0
    · subst h0; cases h'
    · rw [if_pos h0] at h'
      have hne : cores ≠ [] := by intro h; rw [h] at hn; simp at hn; omega
      rw [orth_contr_take env lr X.shape cores _ hne] at h'
      unfold padCores at p1
      rw [p1] at h'
      cases h'
  | .ok lc' =>
    simp only [key lc' h']
    split_ifs
    · cases orthStep env (psiOf X.shape X.toNumpy.get R lr r.rank.reverse cores mu)
        (om.map fun l => l.getD mu (ND.zeros [])) <;> rfl
    · rfl

/-! ### one orthogonalisation -/

/-- The core made from the Q factor of an `(a n) × f` matrix. -/
theorem qrCore_spec {env : Env K} (hQ : QRContract env) {M Q : ND K} {a n f : ℕ} (hM : M.shape = [a * n, f])
    (hpos : 0 < a * n) (h : (env.qr M).1.reshape? [a, n, f] = .ok Q) :
    Q.shape = [a, n, f] ∧ Q.LeftOrthogonal ∧
      ∀ i < a, ∀ j < n, ∀ c < f,
        ∑ t ∈ range f, Q.get [i, j, t] * (env.qr M).2.get [t, c] = M.get [i * n + j, c] := by
  obtain ⟨q1, q2, q3, q4⟩ := hQ M (a * n) f hM
  unfold ND.reshape? at h
  split at h
  · next hp =>
    rw [q1] at hp
    have hmin : min (a * n) f = f := by
      have : a * n * min (a * n) f = a * n * f := by simpa [mul_assoc] using hp
      exact Nat.eq_of_mul_eq_mul_left hpos this
    rw [hmin] at q1 q3 q4
    injection h with h
    subst h
    have hg : ∀ i j t, j < n → (((env.qr M).1).reshape [a, n, f]).get [i, j, t] = (env.qr M).1.get [i * n + j, t] :=
      fun i j t hj => ND.reshape_split12 q1 i j t hj
    refine ⟨rfl, fun s hs t ht => ?_, fun i hi j hj c hc => ?_⟩
    · have hs : s < f := hs
      have ht : t < f := ht
      show ∑ x ∈ range a, ∑ j ∈ range n, _ = _
      rw [← q4 s hs t ht, range_mul_sum]
      refine sum_congr rfl fun x _ => sum_congr rfl fun j hj => ?_
      rw [hg _ _ _ (by simpa using hj), hg _ _ _ (by simpa using hj)]
    · rw [← q3 (i * n + j) ((ND.lt_mul_iff hj).2 hi) c hc]
      exact sum_congr rfl fun t _ => by rw [hg _ _ _ hj]
  · cases h

/-- The `Q` factors have the shape of an economic QR factorisation. -/
def QRShape (env : Env K) : Prop := ∀ (M : ND K) (m n : ℕ), M.shape = [m, n] → (env.qr M).1.shape = [m, min m n]

theorem QRContract.qrShape {env : Env K} (hQ : QRContract env) : QRShape env := fun M m n h => (hQ M m n h).shapeQ

theorem qrCore_ok {env : Env K} (hQ : QRShape env) {M : ND K} {a n f : ℕ} (hM : M.shape = [a * n, f])
    (hf : f ≤ a * n) : ∃ Q, (env.qr M).1.reshape? [a, n, f] = .ok Q := by
  have q1 := hQ M (a * n) f hM
  exact ⟨_, reshape?_ok q1 (by rw [min_eq_right hf]; simp [mul_assoc])⟩

/-- Method `hmt`. -/
theorem orthStep_none {env : Env K} (hQ : QRContract env) {P Q : ND K} {a n r : ℕ} (hP : P.shape = [a, n, r])
    (hpos : 0 < a * n) (h : orthStep env P none = .ok Q) :
    Q.shape = [a, n, r] ∧ Q.LeftOrthogonal ∧ ∃ y : ℕ → ℕ → K, ∀ i < a, ∀ j < n, ∀ b < r,
      ∑ t ∈ range r, Q.get [i, j, t] * y t b = P.get [i, j, b] := by
  have e : orthStep env P none = (env.qr (P.reshape [a * n, r])).1.reshape? [a, n, r] := by
    unfold orthStep; rw [(dim_of_shape3 hP).1, (dim_of_shape3 hP).2.1, (dim_of_shape3 hP).2.2]
  rw [e] at h
  obtain ⟨h1, h2, h3⟩ := qrCore_spec hQ rfl hpos h
  refine ⟨h1, h2, fun t b => (env.qr (P.reshape [a * n, r])).2.get [t, b], fun i hi j hj b hb => ?_⟩
  rw [h3 i hi j hj b hb, ND.reshape_merge12 hP i j b hj]

theorem dim0_of_shape2 {O : ND K} {f r : ℕ} (hO : O.shape = [f, r]) : O.dim 0 = f := by
  rw [ND.dim, hO]; rfl

theorem orthStep_eq {env : Env K} {P O : ND K} {a n r f : ℕ} (hP : P.shape = [a, n, r]) (hO : O.shape = [f, r]) :
    orthStep env P (some O) = (env.qr (rightMulPinv env (P.reshape [a * n, r]) O)).1.reshape? [a, n, f] := by
  unfold orthStep
  rw [(dim_of_shape3 hP).1, (dim_of_shape3 hP).2.1, (dim_of_shape3 hP).2.2]
  show ND.reshape? _ [a, n, O.dim 0] = _
  rw [dim0_of_shape2 hO]

/-- The solutions of the least squares routine have the right shape. -/
def LstsqShape (env : Env K) : Prop :=
  ∀ (A B : ND K) (m n k : ℕ), A.shape = [m, n] → B.shape = [m, k] → (env.lstsq A B).shape = [n, k]

theorem LstsqContract.lstsqShape {env : Env K} (hE : LstsqContract env) : LstsqShape env :=
  fun A B m n k h1 h2 => (hE A B m n k h1 h2).1

theorem rightMulPinv_shape {env : Env K} (hE : LstsqShape env) {P O : ND K} {m r f : ℕ} (hP : P.shape = [m, r])
    (hO : O.shape = [f, r]) : (rightMulPinv env P O).shape = [m, f] :=
  ND.matT_shape (hE O.matT P.matT r f m (ND.matT_shape hO) (ND.matT_shape hP))

/-- Method `orthogonal`. -/
theorem orthStep_some {env : Env K} (hE : LstsqContract env) (hQ : QRContract env) {P O Q : ND K} {a n r f : ℕ}
    (hP : P.shape = [a, n, r]) (hO : O.shape = [f, r]) (hpos : 0 < a * n) (h : orthStep env P (some O) = .ok Q) :
    Q.shape = [a, n, f] ∧ Q.LeftOrthogonal ∧ ∃ y : ℕ → ℕ → K, ∀ i < a, ∀ j < n,
      (∃ x : ℕ → K, ∀ b < r, ∑ c ∈ range f, x c * O.get [c, b] = P.get [i, j, b]) →
      ∀ b < r, ∑ c ∈ range f, (∑ t ∈ range f, Q.get [i, j, t] * y t c) * O.get [c, b] = P.get [i, j, b] := by
  rw [orthStep_eq hP hO] at h
  have hM := rightMulPinv_shape hE.lstsqShape (P := P.reshape [a * n, r]) (m := a * n) rfl hO
  obtain ⟨h1, h2, h3⟩ := qrCore_spec hQ hM hpos h
  refine ⟨h1, h2, fun t c => (env.qr (rightMulPinv env (P.reshape [a * n, r]) O)).2.get [t, c],
    fun i hi j hj hx b hb => ?_⟩
  obtain ⟨C, c1, -, c3⟩ := rightCore_spec hE hP hO
  rw [reshape?_ok hM (by simp [mul_assoc])] at c1
  injection c1 with c1
  subst c1
  rw [← c3 i hi j hj hx b hb]
  refine sum_congr rfl fun c hc => ?_
  rw [h3 i hi j hj c (by simpa using hc), ND.reshape_split12 hM i j c hj]

/-! ### the loop -/

theorem coreMats_take (cores : List (ND K)) {k n : ℕ} (hk : k ≤ n) : coreMats (cores.take n) k = coreMats cores k := by
  funext p a
  unfold coreMats
  rw [List.take_take, min_eq_left hk]

theorem psiOf_take (sh : List ℕ) (f : List ℕ → K) (R : Mats K) (lr rr : List ℕ) (cores : List (ND K)) (mu : ℕ) :
    psiOf sh f R lr rr (cores.take mu) mu = psiOf sh f R lr rr cores mu := by
  unfold psiOf psiSpec
  rw [coreMats_take _ le_rfl]

/-- What the loop has produced. -/
structure OrthRun (env : Env K) (sh : List ℕ) (f : List ℕ → K) (R : Mats K) (lr rr : List ℕ)
    (om : Option (List (ND K))) (cs : List (ND K)) (n : ℕ) : Prop where
  len : cs.length = n
  step : ∀ mu < n, mu < sh.length - 1 → orthStep env (psiOf sh f R lr rr cs mu)
    (om.map fun l => l.getD mu (ND.zeros [])) = .ok (cs.getD mu (ND.zeros []))
  last : ∀ mu < n, ¬ mu < sh.length - 1 → cs.getD mu (ND.zeros []) = psiOf sh f R lr rr cs mu

theorem orthStep_shape {env : Env K} {P Q : ND K} {O : Option (ND K)} {a n r f : ℕ} (hP : P.shape = [a, n, r])
    (hO : match O with | none => r = f | some O => O.shape = [f, r]) (h : orthStep env P O = .ok Q) :
    Q.shape = [a, n, f] := by
  have key : ∀ (A : ND K) (s : List ℕ), A.reshape? s = .ok Q → Q.shape = s := by
    intro A s h
    unfold ND.reshape? at h
    split at h
    · injection h with h; subst h; rfl
    · cases h
  cases O with
  | none =>
    have := key _ _ h
    rw [(dim_of_shape3 hP).1, (dim_of_shape3 hP).2.1] at this
    rw [this]
    show [a, n, P.dim 2] = _
    have hO : r = f := hO
    rw [(dim_of_shape3 hP).2.2, hO]
  | some O =>
    rw [orthStep_eq hP hO] at h
    exact key _ _ h

/-- Shapes of the Omega matrices; without them (`hmt`) both ranks agree. -/
def OmShapes (lr rr : List ℕ) (d : ℕ) : Option (List (ND K)) → Prop
  | none => lr = rr
  | some om => ∀ mu < d - 1, (om.getD mu (ND.zeros [])).shape = [lr.getD mu 0, rr.getD mu 0]

theorem orthRun_shape {env : Env K} {sh : List ℕ} {f : List ℕ → K} {R : Mats K} {lr rr : List ℕ}
    {om : Option (List (ND K))} {cs : List (ND K)} {n : ℕ} (h : OrthRun env sh f R lr rr om cs n)
    (hl : lr.length = sh.length - 1) (hr : rr.length = sh.length - 1)
    (hom : OmShapes lr rr sh.length om) (hn : n ≤ sh.length) :
    Cores cs (fun k => (1 :: lr ++ [1]).getD k 0) (fun k => sh.getD k 0) := by
  intro mu hmu
  rw [h.len] at hmu
  by_cases h1 : mu < sh.length - 1
  · have := h.step mu hmu h1
    refine (orthStep_shape (f := lr.getD mu 0) (psiOf_shape ..) ?_ this).trans ?_
    · cases om with
      | none =>
        have hom : lr = rr := hom
        show (rr ++ [1]).getD mu 0 = _
        rw [List.getD_append _ _ _ _ (by omega), hom]
      | some om =>
        show (om.getD mu _).shape = _
        have hom := hom mu h1
        rw [hom, List.getD_append _ _ _ _ (by omega)]
    · beta_reduce
      rw [aug_left (by omega), aug_right (by omega)]
  · rw [h.last mu hmu h1, psiOf_shape]
    beta_reduce
    rw [aug_left (by omega), aug_right' mu]
    rw [List.getD_append_right _ _ _ _ (by omega), List.getD_append_right _ _ _ _ (by omega), hl, hr]

theorem psiOf_append (sh : List ℕ) (f : List ℕ → K) (R : Mats K) (lr rr : List ℕ) (cores l : List (ND K)) {mu : ℕ}
    (h : mu ≤ cores.length) : psiOf sh f R lr rr (cores ++ l) mu = psiOf sh f R lr rr cores mu := by
  rw [← psiOf_take _ _ _ _ _ (cores ++ l), List.take_append_of_le_length h, psiOf_take]

theorem orthRun_cores {env : Env K} {sh : List ℕ} {f : List ℕ → K} {R : Mats K} {lr rr : List ℕ}
    {om : Option (List (ND K))} {cs : List (ND K)} {n : ℕ} (h : OrthRun env sh f R lr rr om cs n)
    (hl : lr.length = sh.length - 1) (hr : rr.length = sh.length - 1) (hom : OmShapes lr rr sh.length om)
    (hn : n ≤ sh.length - 1) : OrthCores lr sh cs := by
  intro k hk
  rw [orthRun_shape h hl hr hom (by omega) k hk]
  have := h.len
  beta_reduce
  rw [aug_left (by omega), aug_left (by omega)]

theorem orthRun_snoc {env : Env K} {sh : List ℕ} {f : List ℕ → K} {R : Mats K} {lr rr : List ℕ}
    {om : Option (List (ND K))} {cs : List (ND K)} {Q : ND K} {n : ℕ} (h : OrthRun env sh f R lr rr om cs n)
    (h1 : n < sh.length - 1 → orthStep env (psiOf sh f R lr rr cs n) (om.map fun l => l.getD n (ND.zeros [])) = .ok Q)
    (h2 : ¬ n < sh.length - 1 → Q = psiOf sh f R lr rr cs n) :
    OrthRun env sh f R lr rr om (cs ++ [Q]) (n + 1) := by
  have hlast : (cs ++ [Q]).getD n (ND.zeros []) = Q := by
    rw [List.getD_append_right _ _ _ _ (by rw [h.len]), h.len, Nat.sub_self]; rfl
  refine ⟨by simp [h.len], fun mu hmu hs => ?_, fun mu hmu hs => ?_⟩
  · rw [psiOf_append _ _ _ _ _ _ _ (by rw [h.len]; omega)]
    rcases Nat.lt_succ_iff_lt_or_eq.1 hmu with hm | rfl
    · rw [List.getD_append _ _ _ _ (by rw [h.len]; omega)]
      exact h.step mu hm hs
    · rw [hlast]; exact h1 hs
  · rw [psiOf_append _ _ _ _ _ _ _ (by rw [h.len]; omega)]
    rcases Nat.lt_succ_iff_lt_or_eq.1 hmu with hm | rfl
    · rw [List.getD_append _ _ _ _ (by rw [h.len]; omega)]
      exact h.last mu hm hs
    · rw [hlast]; exact h2 hs

section loop
variable {env : Env K} {X : Tensor K} {r : DRM K} {R : Mats K} {lr : List ℕ} {rc : List (List (ND K))}
  {om : Option (List (ND K))}

theorem orth_fold (hX : X.Valid) (hd : 2 ≤ X.shape.length) (hS : StreamsWith env X r R)
    (hl : lr.length = X.shape.length - 1) (hr : r.rank.reverse.length = X.shape.length - 1)
    (hrc : r.contr env X = .ok rc) (hom : OmShapes lr r.rank.reverse X.shape.length om) :
    ∀ n ≤ X.shape.length, ∀ cs, (List.range n).foldlM (psiOrthStep env X lr r.rank.reverse om rc) [] = .ok cs →
      OrthRun env X.shape X.toNumpy.get R lr r.rank.reverse om cs n
  | 0, _, cs, h => by
    have h' : Except.ok [] = (Except.ok cs : Except PyErr _) := h
    injection h' with h'
    subst h'
    exact ⟨rfl, fun mu hmu => absurd hmu (by omega), fun mu hmu => absurd hmu (by omega)⟩
  | n + 1, hn, cs, h => by
    rw [List.range_succ, List.foldlM_append] at h
    match h1 : (List.range n).foldlM (psiOrthStep env X lr r.rank.reverse om rc) [] with
    | .error e => rw [h1] at h; cases h
    | .ok cs0 =>
      have ih := orth_fold hX hd hS hl hr hrc hom n (by omega) cs0 h1
      rw [h1] at h
      have h2 : psiOrthStep env X lr r.rank.reverse om rc cs0 n = .ok cs := by
        have : (psiOrthStep env X lr r.rank.reverse om rc cs0 n >>= fun x => pure x) = .ok cs := h
        rwa [bind_pure] at this
      rw [psiOrthStep_eq hX hd hS hl hrc (orthRun_cores ih hl hr hom (by omega)) ih.len (by omega)] at h2
      split at h2
      · next hlt =>
        match h3 : orthStep env (psiOf X.shape X.toNumpy.get R lr r.rank.reverse cs0 n)
            (om.map fun l => l.getD n (ND.zeros [])) with
        | .error e => rw [h3] at h2; cases h2
        | .ok Q =>
          rw [h3] at h2
          have h2' : Except.ok (cs0 ++ [Q]) = (Except.ok cs : Except PyErr _) := h2
          injection h2' with h2'
          subst h2'
          exact orthRun_snoc ih (fun _ => h3) fun h => absurd hlt h
      · next hlt =>
        injection h2 with h2
        subst h2
        exact orthRun_snoc ih (fun h => absurd h hlt) fun _ => rfl

theorem orth_fold_ok (hE : om.isSome → LstsqShape env) (hQ : QRShape env) (hX : X.Valid) (hd : 2 ≤ X.shape.length)
    (hS : StreamsWith env X r R)
    (hl : lr.length = X.shape.length - 1) (hr : r.rank.reverse.length = X.shape.length - 1)
    (hrc : r.contr env X = .ok rc) (hom : OmShapes lr r.rank.reverse X.shape.length om)
    (hfit : ∀ mu < X.shape.length - 1, lr.getD mu 0 ≤ (1 :: lr).getD mu 0 * X.shape.getD mu 0) :
    ∀ n ≤ X.shape.length, ∃ cs, (List.range n).foldlM (psiOrthStep env X lr r.rank.reverse om rc) [] = .ok cs
  | 0, _ => ⟨[], rfl⟩
  | n + 1, hn => by
    obtain ⟨cs0, h1⟩ := orth_fold_ok hE hQ hX hd hS hl hr hrc hom hfit n (by omega)
    have ih := orth_fold hX hd hS hl hr hrc hom n (by omega) cs0 h1
    have e := psiOrthStep_eq hX hd hS hl hrc (orthRun_cores ih hl hr hom (by omega)) ih.len (by omega) om
    rw [List.range_succ, List.foldlM_append, h1]
    show ∃ cs, (psiOrthStep env X lr r.rank.reverse om rc cs0 n >>= fun x => pure x) = .ok cs
    rw [bind_pure, e]
    split
    · next hlt =>
      have hP := psiOf_shape X.shape X.toNumpy.get R lr r.rank.reverse cs0 n
      rw [List.getD_append _ _ _ _ (by omega)] at hP
      have : ∃ Q, orthStep env (psiOf X.shape X.toNumpy.get R lr r.rank.reverse cs0 n)
            (om.map fun l => l.getD n (ND.zeros [])) = .ok Q := by
        cases om with
        | none =>
          have hom : lr = r.rank.reverse := hom
          have e : orthStep env (psiOf X.shape X.toNumpy.get R lr r.rank.reverse cs0 n) none
              = (env.qr ((psiOf X.shape X.toNumpy.get R lr r.rank.reverse cs0 n).reshape
                [(1 :: lr).getD n 0 * X.shape.getD n 0, r.rank.reverse.getD n 0])).1.reshape?
                [(1 :: lr).getD n 0, X.shape.getD n 0, r.rank.reverse.getD n 0] := by
            unfold orthStep; rw [(dim_of_shape3 hP).1, (dim_of_shape3 hP).2.1, (dim_of_shape3 hP).2.2]
          show ∃ Q, orthStep env _ none = .ok Q
          rw [e]
          exact qrCore_ok hQ rfl (by rw [← hom]; exact hfit n hlt)
        | some om =>
          show ∃ Q, orthStep env _ (some (om.getD n _)) = .ok Q
          rw [orthStep_eq hP (hom n hlt)]
          exact qrCore_ok hQ (rightMulPinv_shape (hE rfl) rfl (hom n hlt)) (hfit n hlt)
      obtain ⟨Q, hQ'⟩ := this
      exact ⟨cs0 ++ [Q], by rw [hQ']; rfl⟩
    · exact ⟨_, rfl⟩

end loop

/-! ### left-orthogonality and recovery -/

theorem coreMats_succ {cs : List (ND K)} {rk n : ℕ → ℕ} (h : Cores cs rk n) (h0 : rk 0 = 1) {mu : ℕ}
    (hmu : mu < cs.length) {p : List ℕ} (hp : p.length = mu) (j t : ℕ) :
    coreMats cs (mu + 1) (p ++ [j]) t
      = ∑ a ∈ range (rk mu), coreMats cs mu p a * (cs.getD mu (ND.zeros [])).get [a, j, t] := by
  unfold coreMats
  rw [if_neg (by omega)]
  rcases Nat.eq_zero_or_pos mu with h1 | h1
  · subst h1
    have : p = [] := List.length_eq_zero_iff.1 hp
    subst this
    have e := h.val_one h0 hmu j t
    rw [h0, show [] ++ [j] = [j] from rfl, show 0 + 1 = 1 from rfl, e]
    simp
  · rw [h.val_succ h0 mu hmu p hp]
    exact sum_congr rfl fun a _ => by rw [if_neg (by omega)]

/-- If the open contraction is in the range of a left-orthogonal core, the next contraction gives its
coefficients. -/
theorem orth_project {sh : List ℕ} {f : List ℕ → K} {cs : List (ND K)} {rk n : ℕ → ℕ} (h : Cores cs rk n)
    (h0 : rk 0 = 1) {mu : ℕ} (hmu : mu < cs.length) (hsh : mu < sh.length) (hn : n mu = sh.getD mu 0)
    (ho : (cs.getD mu (ND.zeros [])).LeftOrthogonal) (q : List ℕ) (y : ℕ → K)
    (hy : ∀ a < rk mu, ∀ j < n mu, ∑ t ∈ range (rk (mu + 1)), (cs.getD mu (ND.zeros [])).get [a, j, t] * y t
      = pcL sh f (coreMats cs) mu a (j :: q)) (t : ℕ) (ht : t < rk (mu + 1)) :
    pcL sh f (coreMats cs) (mu + 1) t q = y t := by
  have e : pcL sh f (coreMats cs) (mu + 1) t q
      = ∑ a ∈ range (rk mu), ∑ j ∈ range (n mu), (cs.getD mu (ND.zeros [])).get [a, j, t]
          * pcL sh f (coreMats cs) mu a (j :: q) := by
    unfold pcL
    rw [sumIdx_take_succ hsh, hn]
    have : ∀ p, InR (sh.take mu) p → ∑ j ∈ range (sh.getD mu 0), coreMats cs (mu + 1) (p ++ [j]) t * f (p ++ [j] ++ q)
        = ∑ a ∈ range (rk mu), ∑ j ∈ range (sh.getD mu 0), (cs.getD mu (ND.zeros [])).get [a, j, t]
          * (coreMats cs mu p a * f (p ++ j :: q)) := by
      intro p hp
      rw [sum_comm]
      refine sum_congr rfl fun j _ => ?_
      rw [coreMats_succ h h0 hmu (by rw [hp.length, List.length_take]; omega), sum_mul, List.append_assoc]
      exact sum_congr rfl fun a _ => by simp only [List.singleton_append]; ring
    rw [sumIdx_congr this, sumIdx_sum]
    refine sum_congr rfl fun a _ => ?_
    rw [sumIdx_sum]
    exact sum_congr rfl fun j _ => (mul_sumIdx _ _ _).symm
  rw [e]
  have e2 : ∀ a ∈ range (rk mu), ∀ j ∈ range (n mu), (cs.getD mu (ND.zeros [])).get [a, j, t]
      * pcL sh f (coreMats cs) mu a (j :: q)
      = ∑ t' ∈ range (rk (mu + 1)), (cs.getD mu (ND.zeros [])).get [a, j, t] * (cs.getD mu (ND.zeros [])).get [a, j, t'] * y t' := by
    intro a ha j hj
    rw [← hy a (by simpa using ha) j (by simpa using hj), mul_sum]
    exact sum_congr rfl fun t' _ => (mul_assoc _ _ _).symm
  rw [sum_congr rfl fun a ha => sum_congr rfl fun j hj => e2 a ha j hj]
  rw [sum_congr rfl fun a _ => sum_comm, sum_comm]
  have hc := h mu hmu
  have e3 : ∀ t' ∈ range (rk (mu + 1)), ∑ a ∈ range (rk mu), ∑ j ∈ range (n mu),
      (cs.getD mu (ND.zeros [])).get [a, j, t] * (cs.getD mu (ND.zeros [])).get [a, j, t'] * y t'
      = if t = t' then y t' else 0 := by
    intro t' ht'
    have := ho t (by rw [(dim_of_shape3 hc).2.2]; exact ht) t' (by rw [(dim_of_shape3 hc).2.2]; simpa using ht')
    rw [(dim_of_shape3 hc).1, (dim_of_shape3 hc).2.1] at this
    rw [sum_congr rfl fun a _ => (sum_mul _ _ _).symm, ← sum_mul, this]
    split_ifs <;> simp
  rw [sum_congr rfl e3, sum_ite_eq, if_pos (by simpa using ht)]

/-- All cores but the last are left-orthogonal. -/
theorem orthRun_orth {env : Env K} (hE : LstsqContract env) (hQ : QRContract env)
    {sh : List ℕ} {f : List ℕ → K} {R : Mats K} {lr rr : List ℕ}
    {om : Option (List (ND K))} {cs : List (ND K)} (h : OrthRun env sh f R lr rr om cs sh.length)
    (hl : lr.length = sh.length - 1) (hr : rr.length = sh.length - 1) (hom : OmShapes lr rr sh.length om)
    (hpos : ∀ mu < sh.length - 1, 0 < (1 :: lr).getD mu 0 * sh.getD mu 0) :
    ∀ mu < sh.length - 1, (cs.getD mu (ND.zeros [])).LeftOrthogonal := by
  intro mu hmu
  have hs := h.step mu (by omega) hmu
  have hP := psiOf_shape sh f R lr rr cs mu
  rw [List.getD_append _ _ _ _ (by omega)] at hP
  cases om with
  | none => exact (orthStep_none hQ hP (hpos mu hmu) hs).2.1
  | some om => exact (orthStep_some hE hQ hP (hom mu hmu) (hpos mu hmu) hs).2.1

/-- Recovery, given that every open contraction is in the range of the core. -/
theorem orthRun_recover {env : Env K} 
    {sh : List ℕ} {f : List ℕ → K} {R : Mats K} {lr rr : List ℕ}
    {om : Option (List (ND K))} {cs : List (ND K)} (h : OrthRun env sh f R lr rr om cs sh.length)
    (hd : 1 ≤ sh.length)
    (hl : lr.length = sh.length - 1) (hr : rr.length = sh.length - 1) (hom : OmShapes lr rr sh.length om)
    (hR : ∀ b, R sh.length [] b = 1)
    (ho : ∀ mu < sh.length - 1, (cs.getD mu (ND.zeros [])).LeftOrthogonal)
    (hy : ∀ mu < sh.length - 1, ∀ q, InR (sh.drop (mu + 1)) q → ∃ y : ℕ → K, ∀ a < (1 :: lr).getD mu 0,
      ∀ j < sh.getD mu 0, ∑ t ∈ range (lr.getD mu 0), (cs.getD mu (ND.zeros [])).get [a, j, t] * y t
        = pcL sh f (coreMats cs) mu a (j :: q)) :
    ∀ i, InR sh i → ttEntry (TT.mk cs) i = f i := by
  have hC := orthRun_shape h hl hr hom le_rfl
  intro i hi
  have := ttVal_drop hC sh h.len (aug_last (by omega)) (pcL sh f (coreMats cs)) hd ?_ ?_ (sh.length - 1) (by omega)
  · rw [Nat.sub_self] at this
    rw [ttEntry, ← List.drop_zero (l := cs), this 0 Nat.one_pos i hi]
    simp [pcL, sumIdx, coreMats]
  · intro a ha j hj
    beta_reduce at ha
    rw [aug_left (by omega)] at ha
    rw [h.last (sh.length - 1) (by omega) (by omega), psiOf, ND.ofFn_get]
    · exact psiSpec_last hd hR _ _ _
    · refine ⟨ha, hj, ?_, trivial⟩
      rw [List.getD_append_right _ _ _ _ (by omega), hr, Nat.sub_self]; exact Nat.one_pos
  · intro mu hmu a ha j hj q hq
    beta_reduce at ha
    rw [aug_left (by omega)] at ha
    beta_reduce
    rw [aug_right (by omega)]
    obtain ⟨y, hy⟩ := hy mu hmu q hq
    rw [← hy a ha j hj]
    refine sum_congr rfl fun t ht => ?_
    rw [orth_project hC rfl (by rw [h.len]; omega) (by omega) rfl (ho mu hmu) q y (fun a ha j hj => ?_) t (by
      beta_reduce; rw [aug_right (by omega)]; simpa using ht)]
    beta_reduce at ha ⊢
    rw [aug_left (by omega)] at ha
    rw [aug_right (by omega)]
    exact hy a ha j hj

theorem psiOf_get {sh : List ℕ} {f : List ℕ → K} {R : Mats K} {lr rr : List ℕ} {cs : List (ND K)} {mu a j b : ℕ}
    (hr : mu < rr.length) (ha : a < (1 :: lr).getD mu 0) (hj : j < sh.getD mu 0) (hb : b < rr.getD mu 0) :
    (psiOf sh f R lr rr cs mu).get [a, j, b] = psiSpec sh f (coreMats cs) R mu a j b := by
  unfold psiOf
  rw [ND.ofFn_get]
  · rfl
  · exact ⟨ha, hj, by rwa [List.getD_append _ _ _ _ hr], trivial⟩

/-- Method `hmt`: the columns of the unfoldings must survive the right sketch. -/
theorem hmt_recover {env : Env K} (hE : LstsqContract env) (hQ : QRContract env)
    {sh : List ℕ} {f : List ℕ → K} {R : Mats K} {lr : List ℕ} {cs : List (ND K)}
    (h : OrthRun env sh f R lr lr none cs sh.length) (hd : 1 ≤ sh.length) (hl : lr.length = sh.length - 1)
    (hR : ∀ b, R sh.length [] b = 1) (hpos : ∀ mu < sh.length - 1, 0 < (1 :: lr).getD mu 0 * sh.getD mu 0)
    (hcol : ∀ mu < sh.length - 1, ColSpan sh f R (mu + 1) (lr.getD mu 0)) :
    ∀ i, InR sh i → ttEntry (TT.mk cs) i = f i := by
  refine orthRun_recover h hd hl hl rfl hR (orthRun_orth hE hQ h hl hl rfl hpos) fun mu hmu q hq => ?_
  have hs := h.step mu (by omega) hmu
  have hP := psiOf_shape sh f R lr lr cs mu
  rw [List.getD_append _ _ _ _ (by omega)] at hP
  obtain ⟨-, -, y, hy⟩ := orthStep_none hQ hP (hpos mu hmu) hs
  obtain ⟨V, hV⟩ := hcol mu hmu
  refine ⟨fun t => ∑ b ∈ range (lr.getD mu 0), y t b * V b q, fun a ha j hj => ?_⟩
  rw [ColSpan.pcL_open (by omega) hV a j hj q hq]
  rw [sum_congr rfl fun t _ => mul_sum _ _ _, sum_comm]
  refine sum_congr rfl fun b hb => ?_
  have hb : b < lr.getD mu 0 := by simpa using hb
  rw [← psiOf_get (by omega) ha hj hb, ← hy a ha j hj b hb, sum_mul]
  exact sum_congr rfl fun t _ => (mul_assoc _ _ _).symm

/-- Method `orthogonal`. -/
theorem orth_recover {env : Env K} (hE : LstsqContract env) (hQ : QRContract env)
    {sh : List ℕ} {f : List ℕ → K} {L R : Mats K} {lr rr : List ℕ} {cs : List (ND K)}
    (h : OrthRun env sh f R lr rr (some (sketchOf sh f L R lr rr).omega) cs sh.length) (hd : 1 ≤ sh.length)
    (hl : lr.length = sh.length - 1) (hr : rr.length = sh.length - 1)
    (hR : ∀ b, R sh.length [] b = 1) (hpos : ∀ mu < sh.length - 1, 0 < (1 :: lr).getD mu 0 * sh.getD mu 0)
    (hrow : ∀ mu < sh.length - 1, RowSpan sh f L (mu + 1) (lr.getD mu 0))
    (hcol : ∀ mu < sh.length - 1, ColSpan sh f R (mu + 1) (rr.getD mu 0)) :
    ∀ i, InR sh i → ttEntry (TT.mk cs) i = f i := by
  have hom : OmShapes lr rr sh.length (some (sketchOf sh f L R lr rr).omega) :=
    (sketchOf_hasShape sh f L R lr rr).omega
  refine orthRun_recover h hd hl hr hom hR (orthRun_orth hE hQ h hl hr hom hpos) fun mu hmu q hq => ?_
  have hs := h.step mu (by omega) hmu
  have hP := psiOf_shape sh f R lr rr cs mu
  rw [List.getD_append _ _ _ _ (by omega)] at hP
  obtain ⟨-, -, y, hy⟩ := orthStep_some hE hQ hP (hom mu hmu) (hpos mu hmu) hs
  refine ⟨fun t => ∑ c ∈ range (lr.getD mu 0), y t c * pcL sh f L (mu + 1) c q, fun a ha j hj => ?_⟩
  have e2 : ∀ b < rr.getD mu 0, ∀ x : ℕ → K, ∑ c ∈ range (lr.getD mu 0),
      x c * ((sketchOf sh f L R lr rr).omega.getD mu (ND.zeros [])).get [c, b]
      = ∑ c ∈ range (lr.getD mu 0), x c * omegaSpec sh f L R mu c b := fun b hb x =>
    sum_congr rfl fun c hc => by rw [sketchOf_omega_get hmu (by simpa using hc) hb]
  rw [← right_core_step (L := L) (L' := coreMats cs) (l1 := lr.getD mu 0) (by omega) (hcol mu hmu)
    (fun a j c => ∑ t ∈ range (lr.getD mu 0), (cs.getD mu (ND.zeros [])).get [a, j, t] * y t c) a j hj ?_ q hq]
  · rw [sum_congr rfl fun t _ => mul_sum _ _ _, sum_comm]
    refine sum_congr rfl fun c _ => ?_
    rw [sum_mul]
    exact sum_congr rfl fun t _ => (mul_assoc _ _ _).symm
  · intro b hb
    obtain ⟨x, hx⟩ := right_core_exists (L := L) (L' := coreMats cs) (R := R) (by omega) (hrow mu hmu) a j hj
    have := hy a ha j hj ⟨x, fun b hb => by
      rw [psiOf_get (by omega) ha hj hb, ← hx b, ← e2 b hb]⟩ b hb
    rw [psiOf_get (by omega) ha hj hb] at this
    rw [← this]
    exact (e2 b hb _).symm

end
end TTS
