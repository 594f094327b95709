import Verif.Proofs.FloatPsi
import Verif.Proofs.FloatDot

/-! `general_sketch` (streaming) in floating point arithmetic. -/

namespace TTS
open Finset ND

/-- Omega of absolute values -/
def aO (env : Env ℝ) (l r : DRM ℝ) (t : Leaf ℝ) (mu : ℕ) : ND ℝ :=
  omegaLeaf t.abs mu ((l.absD env t).getD mu (ND.zeros [])) ((r.absD env t).getD mu (ND.zeros []))

/-- Psi of absolute values -/
def aP (env : Env ℝ) (l r : DRM ℝ) (t : Leaf ℝ) (mu : ℕ) : ND ℝ :=
  match psiLeaf t.abs mu (psiShape t.shape l.rank r.rank.reverse mu) (loAt (l.absD env t) mu)
    (roAt (r.absD env t) t.shape.length mu) with
  | .ok P => P
  | .error _ => ND.zeros []

section leaf
variable {u : ℝ} {env : Env ℝ} {l r : DRM ℝ} {X : Leaf ℝ}

theorem shapes_lr (env : Env ℝ) (hl : l.Accepts X) (hr : r.Accepts X) (hlt : l.transpose = false) (hrt : r.transpose = true) :
    (∀ k < X.shape.length - 1, ShapeL X (k + 1) (l.rank.getD k 0)
      ((l.sketchD env X).getD k (ND.zeros []))) ∧
    (∀ k < X.shape.length - 1, ShapeR X (k + 1) (r.rank.reverse.getD k 0)
      ((r.sketchD env X).getD k (ND.zeros []))) :=
  ⟨fun k hk => ((left_spec env hl hlt).2 k hk).shapeL,
   fun k hk => shapeR_of_T hl.valid (by omega) ((right_raw env hr hrt).2 k hk)⟩

theorem leaf_omega_near (hu : 0 ≤ u) (hl : l.Accepts X) (hr : r.Accepts X) (hlt : l.transpose = false)
    (hrt : r.transpose = true) {lc rc : List (ND ℝ)} (h1 : l.FlSketch u env X lc) (h2 : r.FlSketch u env X rc)
    {mu : ℕ} (hmu : mu < X.shape.length - 1) {C : ND ℝ}
    (h : FlOmegaLeaf u X mu (lc.getD mu (ND.zeros [])) (rc.getD mu (ND.zeros [])) C) :
    NN u (X.omegaTotal l r mu) C (oSk env l r X mu) (aO env l r X mu) := by
  obtain ⟨sl, sr⟩ := shapes_lr env hl hr hlt hrt
  exact omega_near hu (by omega) hl.valid (sl mu hmu) (sr mu hmu) ((left_near hu env hl hlt).2 lc h1 mu hmu)
    ((right_near hu env hr hrt).2 rc h2 mu hmu) h

theorem leaf_psi_near (hu : 0 ≤ u) (hl : l.Accepts X) (hr : r.Accepts X) (hlt : l.transpose = false)
    (hrt : r.transpose = true) {lc rc : List (ND ℝ)} (h1 : l.FlSketch u env X lc) (h2 : r.FlSketch u env X rc)
    {mu : ℕ} (hmu : mu < X.shape.length) {C : ND ℝ}
    (h : FlPsiLeaf u X mu (psiShape X.shape l.rank r.rank.reverse mu) (loAt lc mu)
      (roAt rc X.shape.length mu) C) :
    NN u (X.psiTotal l r mu) C (pSk env l r X mu) (aP env l r X mu) := by
  obtain ⟨sl, sr⟩ := shapes_lr env hl hr hlt hrt
  have hs : PsiShapes X mu (if 0 < mu then l.rank.getD (mu - 1) 0 else 1)
      (if mu < X.shape.length - 1 then r.rank.reverse.getD mu 0 else 1)
      (loAt (l.sketchD env X) mu) (roAt (r.sketchD env X) X.shape.length mu) := by
    constructor
    · rcases Nat.eq_zero_or_pos mu with h0 | h0
      · left; subst h0; exact ⟨rfl, rfl, rfl⟩
      · right
        refine ⟨h0, _, if_pos h0, ?_⟩
        have := sl (mu - 1) (by omega)
        rw [show mu - 1 + 1 = mu by omega] at this
        rwa [if_pos h0]
    · by_cases h1 : mu < X.shape.length - 1
      · right
        refine ⟨by omega, _, if_pos h1, ?_⟩
        rw [if_pos h1]; exact sr mu h1
      · left
        exact ⟨by omega, if_neg h1, if_neg h1⟩
  have kl : OptNN u (l.contrRounds X mu) (loAt lc mu) (loAt (l.sketchD env X) mu) (loAt (l.absD env X) mu) := by
    unfold loAt
    split_ifs with h0
    · have := (left_near hu env hl hlt).2 lc h1 (mu - 1) (by omega)
      rw [show mu - 1 + 1 = mu by omega] at this
      exact this
    · trivial
  have kr : OptNN u (r.contrRounds X.T (X.shape.length - (mu + 1))) (roAt rc X.shape.length mu)
      (roAt (r.sketchD env X) X.shape.length mu) (roAt (r.absD env X) X.shape.length mu) := by
    unfold roAt
    split_ifs with h0
    · exact (right_near hu env hr hrt).2 rc h2 mu h0
    · trivial
  obtain ⟨A, M, e1, e2, k⟩ := psi_near hu hl.valid hl.dim hs kl kr h
  have f1 : pSk env l r X mu = A := by
    unfold pSk psiShape; rw [e1]
  have f2 : aP env l r X mu = M := by
    unfold aP psiShape; rw [e2]
  rw [f1, f2]
  exact k

theorem abs_shapes (env : Env ℝ) (hl : l.Accepts X) (hr : r.Accepts X) (hlt : l.transpose = false)
    (hrt : r.transpose = true) :
    (∀ mu < X.shape.length - 1, (aO env l r X mu).shape = [l.rank.getD mu 0, r.rank.reverse.getD mu 0]) ∧
    (∀ mu < X.shape.length, (aP env l r X mu).shape = psiShape X.shape l.rank r.rank.reverse mu) := by
  have hv := Leaf.abs_valid hl.valid
  have hsh := Leaf.abs_shape X
  have hd := hl.dim
  have sl : ∀ k < X.shape.length - 1, ShapeL X.abs (k + 1) (l.rank.getD k 0)
      ((l.absD env X).getD k (ND.zeros [])) := fun k hk => ((left_near le_rfl env hl hlt).1 k hk).shapeL
  have sr : ∀ k < X.shape.length - 1, ShapeR X.abs (k + 1) (r.rank.reverse.getD k 0)
      ((r.absD env X).getD k (ND.zeros [])) := fun k hk =>
    shapeR_of_T hv (by rw [hsh]; omega) (by rw [hsh]; exact (right_near le_rfl env hr hrt).1 k hk)
  refine ⟨fun mu hmu => omega_shape (sl mu hmu) (sr mu hmu), fun mu hmu => ?_⟩
  have hs : PsiShapes X.abs mu (if 0 < mu then l.rank.getD (mu - 1) 0 else 1)
      (if mu < X.shape.length - 1 then r.rank.reverse.getD mu 0 else 1)
      (loAt (l.absD env X) mu) (roAt (r.absD env X) X.shape.length mu) := by
    constructor
    · rcases Nat.eq_zero_or_pos mu with h0 | h0
      · left; subst h0; exact ⟨rfl, rfl, rfl⟩
      · right
        refine ⟨h0, _, if_pos h0, ?_⟩
        have := sl (mu - 1) (by omega)
        rw [show mu - 1 + 1 = mu by omega] at this
        rwa [if_pos h0]
    · rw [hsh]
      by_cases h1 : mu < X.shape.length - 1
      · right
        refine ⟨by omega, _, if_pos h1, ?_⟩
        rw [if_pos h1]; exact sr mu h1
      · left
        exact ⟨by omega, if_neg h1, if_neg h1⟩
  obtain ⟨P, h1, h2⟩ := psi_shape hv (by rw [hsh]; exact hd) hs
  rw [hsh] at h1 h2
  have : aP env l r X mu = P := by
    unfold aP psiShape; rw [h1]
  rw [this, h2]
  rfl

end leaf

theorem fold_near {α : Type*} {u : ℝ} (hu : 0 ≤ u) {N : ℕ} {f : α → ND ℝ → Prop} {g h : α → ND ℝ} :
    ∀ (ts : List α) {B' B M B'' : ND ℝ} {k : ℕ}, (∀ t ∈ ts, ∀ P, f t P → NN u N P (g t) (h t)) →
    NN u (N + k) B' B M →
    flFold (fun s t s' => ∃ P, f t P ∧ s.shape = P.shape ∧ FlAdd u s P s') B' ts B'' →
    NN u (N + k + ts.length) B'' (ts.foldl (fun s t => s.add (g t)) B) (ts.foldl (fun s t => s.add (h t)) M)
  | [], B', B, M, B'', k, _, hB, hf => by cases hf; simpa using hB
  | t :: ts, B', B, M, B'', k, ht, hB, hf => by
    obtain ⟨B1, ⟨A, hA, _, h1⟩, hf⟩ := hf
    have k1 := (ht t (by simp) A hA).mono hu (Nat.le_add_right N k)
    have k2 := NDNear.add hu hB k1 h1
    rw [← pow_succ', Nat.add_assoc] at k2
    have := fold_near hu ts (fun s hs => ht s (by simp [hs])) k2 hf
    simp only [List.length_cons, List.foldl_cons]
    rw [show N + k + (ts.length + 1) = N + (k + 1) + ts.length by omega]
    exact this

/-- the sum of the sketches of absolute values -/
def absSum (env : Env ℝ) (l r : DRM ℝ) (sh : List ℕ) (ts : List (Leaf ℝ)) : Container ℝ :=
  contOf sh l.rank r.rank.reverse (fun mu i => (ts.map fun t => (aP env l r t mu).get i).sum)
    (fun mu i => (ts.map fun t => (aO env l r t mu).get i).sum)

theorem NN.one_sum {u : ℝ} {n : ℕ} {C A M : ND ℝ} {sh : List ℕ} (h : NN u n C A M) (hs : A.shape = sh) :
    NN u n C (ND.ofFn sh fun i => ([A].map fun B => B.get i).sum) (ND.ofFn sh fun i => ([M].map fun B => B.get i).sum) := by
  have e : ∀ B : ND ℝ, B.shape = sh → (ND.ofFn sh fun i => ([B].map fun B => B.get i).sum) = B := by
    intro B hB
    refine ND.ext' hB.symm fun i hi => ?_
    rw [ND.ofFn_get (by exact hi)]; simp
  rw [e A hs, e M (h.shape.2.trans hs)]
  exact h

theorem zip_mem {α β γ : Type*} {R : α → β → Prop} {R' : α → γ → Prop} {ts : List α} {lc : List β} {rc : List γ}
    (h1 : List.Forall₂ R ts lc) (h2 : List.Forall₂ R' ts rc) {β' γ' : Type*} (f : β → β') (g : γ → γ')
    {x : α × β' × γ'} (hx : x ∈ ts.zip ((lc.map f).zip (rc.map g))) :
    ∃ b c, x.1 ∈ ts ∧ R x.1 b ∧ R' x.1 c ∧ x.2 = (f b, g c) := by
  induction h1 generalizing rc with
  | nil => simp at hx
  | cons hab hl ih =>
    cases h2 with
    | cons hac h2 =>
      simp only [List.map_cons, List.zip_cons_cons, List.mem_cons] at hx
      rcases hx with rfl | hx
      · exact ⟨_, _, by simp, hab, hac, rfl⟩
      · obtain ⟨b, c, h1, h2, h3, h4⟩ := ih h2 hx
        exact ⟨b, c, by simp [h1], h2, h3, h4⟩

theorem zip_foldl {α β γ δ : Type*} {R : α → β → Prop} {R' : α → γ → Prop} {ts : List α} {lc : List β} {rc : List γ}
    (h1 : List.Forall₂ R ts lc) (h2 : List.Forall₂ R' ts rc) {β' γ' : Type*} (f : β → β') (g : γ → γ')
    (F : δ → α → δ) (z : δ) :
    (ts.zip ((lc.map f).zip (rc.map g))).foldl (fun s t => F s t.1) z = ts.foldl F z ∧
    (ts.zip ((lc.map f).zip (rc.map g))).length = ts.length := by
  have e1 := h1.length_eq
  have e2 := h2.length_eq
  have e : (ts.zip ((lc.map f).zip (rc.map g))).map Prod.fst = ts := by
    rw [List.map_fst_zip]; simp; omega
  constructor
  · conv_rhs => rw [← e, List.foldl_map]
  · conv_rhs => rw [← e, List.length_map]

/-- the floating point sketch, core by core -/
theorem flGeneral_near {u : ℝ} (hu : 0 ≤ u) {env : Env ℝ} {l r : DRM ℝ} {X : Tensor ℝ} (hl : l.AcceptsT X)
    (hr : r.AcceptsT X) (hlt : l.transpose = false) (hrt : r.transpose = true) {C : Container ℝ}
    (h : FlGeneralSketch u env X l r C) :
    ∃ psi om, C = Container.ofCores psi om ∧ psi.length = X.shape.length ∧ om.length = X.shape.length - 1 ∧
      (∀ mu < X.shape.length, NN u (X.psiTotal l r mu) (psi.getD mu (ND.zeros []))
        ((contSum env l r X.shape X.summands).psi.getD mu (ND.zeros []))
        ((absSum env l r X.shape X.summands).psi.getD mu (ND.zeros []))) ∧
      (∀ mu < X.shape.length - 1, NN u (X.omegaTotal l r mu) (om.getD mu (ND.zeros []))
        ((contSum env l r X.shape X.summands).omega.getD mu (ND.zeros []))
        ((absSum env l r X.shape X.summands).omega.getD mu (ND.zeros []))) := by
  obtain ⟨lc, rc, om, psi, hlc, hrc, hom, hpsi, rfl⟩ := h
  have lom := hom.length_eq
  have lpsi := hpsi.length_eq
  rw [List.length_range] at lom lpsi
  have hsh : ∀ t ∈ X.summands, t.shape = X.shape := fun t ht => by
    rw [(hl.each t ht).shape, ← hl.shape]
  refine ⟨psi, om, rfl, lpsi.symm, lom.symm, fun mu hmu => ?_, fun mu hmu => ?_⟩
  · have hP := forall₂_getD hpsi (k := mu) (by simpa using hmu) 0 (ND.zeros [])
    rw [getD_eq (by simpa using hmu), List.getElem_range] at hP
    unfold FlPsiAt at hP
    generalize psi.getD mu (ND.zeros []) = P at hP ⊢
    have e1 : ((contSum env l r X.shape X.summands).psi.getD mu (ND.zeros []))
      = ND.ofFn (psiShape X.shape l.rank r.rank.reverse mu)
          fun i => (X.summands.map fun t => (pSk env l r t mu).get i).sum := by
      unfold contSum contOf
      rw [getD_map_range _ _ _ _ hmu]
    have e2 : ((absSum env l r X.shape X.summands).psi.getD mu (ND.zeros []))
      = ND.ofFn (psiShape X.shape l.rank r.rank.reverse mu)
          fun i => (X.summands.map fun t => (aP env l r t mu).get i).sum := by
      unfold absSum contOf
      rw [getD_map_range _ _ _ _ hmu]
    rw [e1, e2]
    have near : ∀ t ∈ X.summands, ∀ lt rt P, l.FlSketch u env t lt → r.FlSketch u env t rt →
        FlPsiLeaf u t mu (psiShape X.shape l.rank r.rank.reverse mu) (loAt lt mu) (roAt rt X.shape.length mu) P →
        NN u (t.psiTotal l r mu) P (pSk env l r t mu) (aP env l r t mu) ∧
        (pSk env l r t mu).shape = psiShape X.shape l.rank r.rank.reverse mu := by
      intro t ht lt rt P k1 k2 k3
      have hs := hsh t ht
      refine ⟨leaf_psi_near hu (hl.each t ht) (hr.each t ht) hlt hrt k1 k2 (by rw [hs]; exact hmu)
        (by rw [hs]; exact k3), ?_⟩
      have := (parts_sk (env := env) (hl.each t ht) (hr.each t ht) hlt hrt).2.2 mu (by rw [hs]; exact hmu)
      rw [hs] at this
      exact this
    have el : ∀ n, lc.length = n → (if 0 < mu then (pick lc (mu - 1)).map some
        else List.replicate n none) = lc.map fun lt => loAt lt mu := by
      intro n hn
      unfold loAt
      split_ifs
      · unfold pick; simp [Function.comp_def]
      · rw [← hn]; simp [List.map_const']
    have er : ∀ n, rc.length = n → (if mu < X.shape.length - 1 then (pick rc mu).map some
        else List.replicate n none) = rc.map fun lt => roAt lt X.shape.length mu := by
      intro n hn
      unfold roAt
      split_ifs
      · unfold pick; simp [Function.comp_def]
      · rw [← hn]; simp [List.map_const']
    have hP : FlPsiT u X mu (psiShape X.shape l.rank r.rank.reverse mu)
        (if 0 < mu then (pick lc (mu - 1)).map some else List.replicate X.parts none)
        (if mu < X.shape.length - 1 then (pick rc mu).map some else List.replicate X.parts none) P := hP
    rw [el X.parts hlc.length_eq.symm, er X.parts hrc.length_eq.symm] at hP
    cases X with
    | leaf X =>
      obtain ⟨lt, _, k1, kn, rfl⟩ := List.forall₂_cons_left_iff.1 hlc
      obtain ⟨rt, _, k2, kn', rfl⟩ := List.forall₂_cons_left_iff.1 hrc
      obtain ⟨q1, q2⟩ := near X (by simp [Tensor.summands]) lt rt P k1 k2 hP
      exact q1.one_sum q2
    | sum X =>
      have hfold : flFold (fun psi (t : Leaf ℝ × Option (ND ℝ) × Option (ND ℝ)) psi' =>
        ∃ P, FlPsiLeaf u t.1 mu (psiShape X.shape l.rank r.rank.reverse mu) t.2.1 t.2.2 P ∧
          psi.shape = P.shape ∧ FlAdd u psi P psi')
        (ND.zeros (psiShape X.shape l.rank r.rank.reverse mu))
        (X.tensors.zip ((lc.map fun lt => loAt lt mu).zip (rc.map fun lt => roAt lt X.shape.length mu))) P := hP
      have := fold_near hu _ (N := (X.tensors.map fun t => t.psiTotal l r mu).foldr max 0) (k := 0)
        (g := fun t => pSk env l r t.1 mu) (h := fun t => aP env l r t.1 mu) ?_
        (NDNear.zeros _ (one_le_pow_u hu _)) hfold
      · obtain ⟨z1, z2⟩ := zip_foldl hlc hrc (fun lt => loAt lt mu) (fun lt => roAt lt X.shape.length mu)
          (fun (s : ND ℝ) t => s.add (pSk env l r t mu)) (ND.zeros (psiShape X.shape l.rank r.rank.reverse mu))
        obtain ⟨z3, _⟩ := zip_foldl hlc hrc (fun lt => loAt lt mu) (fun lt => roAt lt X.shape.length mu)
          (fun (s : ND ℝ) t => s.add (aP env l r t mu)) (ND.zeros (psiShape X.shape l.rank r.rank.reverse mu))
        simp only [Tensor.summands] at z1 z2 z3
        rw [z1, z2, z3] at this
        rw [foldl_add_eq _ _ _ ?_, foldl_add_eq _ _ _ ?_] at this
        · exact this
        · intro t ht
          have hs := hsh t ht
          have := (abs_shapes env (hl.each t ht) (hr.each t ht) hlt hrt).2 mu (by rw [hs]; exact hmu)
          rw [hs] at this
          exact this
        · intro t ht
          have hs := hsh t ht
          have := (parts_sk (env := env) (hl.each t ht) (hr.each t ht) hlt hrt).2.2 mu (by rw [hs]; exact hmu)
          rw [hs] at this
          exact this
      · intro x hx P hP
        obtain ⟨b, c, hm, k1, k2, e⟩ := zip_mem hlc hrc _ _ hx
        rw [e] at hP
        refine ((near x.1 hm b c P k1 k2 hP).1).mono hu ?_
        exact le_foldr_max (List.mem_map_of_mem (f := fun t => Leaf.psiTotal l r t mu) hm)
  · have hP := forall₂_getD hom (k := mu) (by simpa using hmu) 0 (ND.zeros [])
    rw [getD_eq (by simpa using hmu), List.getElem_range] at hP
    generalize om.getD mu (ND.zeros []) = P at hP ⊢
    have e1 : ((contSum env l r X.shape X.summands).omega.getD mu (ND.zeros []))
      = ND.ofFn [l.rank.getD mu 0, r.rank.reverse.getD mu 0]
          fun i => (X.summands.map fun t => (oSk env l r t mu).get i).sum := by
      unfold contSum contOf
      rw [getD_map_range _ _ _ _ hmu]
    have e2 : ((absSum env l r X.shape X.summands).omega.getD mu (ND.zeros []))
      = ND.ofFn [l.rank.getD mu 0, r.rank.reverse.getD mu 0]
          fun i => (X.summands.map fun t => (aO env l r t mu).get i).sum := by
      unfold absSum contOf
      rw [getD_map_range _ _ _ _ hmu]
    rw [e1, e2]
    have near : ∀ t ∈ X.summands, ∀ lt rt P, l.FlSketch u env t lt → r.FlSketch u env t rt →
        FlOmegaLeaf u t mu (lt.getD mu (ND.zeros [])) (rt.getD mu (ND.zeros [])) P →
        NN u (t.omegaTotal l r mu) P (oSk env l r t mu) (aO env l r t mu) ∧
        (oSk env l r t mu).shape = [l.rank.getD mu 0, r.rank.reverse.getD mu 0] := by
      intro t ht lt rt P k1 k2 k3
      have hs := hsh t ht
      refine ⟨leaf_omega_near hu (hl.each t ht) (hr.each t ht) hlt hrt k1 k2 (by rw [hs]; exact hmu) k3, ?_⟩
      exact (parts_sk (env := env) (hl.each t ht) (hr.each t ht) hlt hrt).2.1 mu (by rw [hs]; exact hmu)
    unfold pick at hP
    cases X with
    | leaf X =>
      obtain ⟨lt, _, k1, kn, rfl⟩ := List.forall₂_cons_left_iff.1 hlc
      obtain ⟨rt, _, k2, kn', rfl⟩ := List.forall₂_cons_left_iff.1 hrc
      obtain ⟨q1, q2⟩ := near X (by simp [Tensor.summands]) lt rt P k1 k2 hP
      exact q1.one_sum q2
    | sum X =>
      have hfold : flFold (fun om (t : Leaf ℝ × ND ℝ × ND ℝ) om' =>
        ∃ P, FlOmegaLeaf u t.1 mu t.2.1 t.2.2 P ∧ om.shape = P.shape ∧ FlAdd u om P om')
        (ND.zeros [l.rank.getD mu 0, r.rank.reverse.getD mu 0])
        (X.tensors.zip ((lc.map fun lt => lt.getD mu (ND.zeros [])).zip
          (rc.map fun lt => lt.getD mu (ND.zeros [])))) P := hP
      have := fold_near hu _ (N := (X.tensors.map fun t => t.omegaTotal l r mu).foldr max 0) (k := 0)
        (g := fun t => oSk env l r t.1 mu) (h := fun t => aO env l r t.1 mu) ?_
        (NDNear.zeros _ (one_le_pow_u hu _)) hfold
      · obtain ⟨z1, z2⟩ := zip_foldl hlc hrc (fun lt => lt.getD mu (ND.zeros [])) (fun lt => lt.getD mu (ND.zeros []))
          (fun (s : ND ℝ) t => s.add (oSk env l r t mu)) (ND.zeros [l.rank.getD mu 0, r.rank.reverse.getD mu 0])
        obtain ⟨z3, _⟩ := zip_foldl hlc hrc (fun lt => lt.getD mu (ND.zeros [])) (fun lt => lt.getD mu (ND.zeros []))
          (fun (s : ND ℝ) t => s.add (aO env l r t mu)) (ND.zeros [l.rank.getD mu 0, r.rank.reverse.getD mu 0])
        simp only [Tensor.summands] at z1 z2 z3
        rw [z1, z2, z3] at this
        rw [foldl_add_eq _ _ _ ?_, foldl_add_eq _ _ _ ?_] at this
        · exact this
        · intro t ht
          have hs := hsh t ht
          exact (abs_shapes env (hl.each t ht) (hr.each t ht) hlt hrt).1 mu (by rw [hs]; exact hmu)
        · intro t ht
          have hs := hsh t ht
          exact (parts_sk (env := env) (hl.each t ht) (hr.each t ht) hlt hrt).2.1 mu (by rw [hs]; exact hmu)
      · intro x hx P hP
        obtain ⟨b, c, hm, k1, k2, e⟩ := zip_mem hlc hrc _ _ hx
        rw [e] at hP
        refine ((near x.1 hm b c P k1 k2 hP).1).mono hu ?_
        exact le_foldr_max (List.mem_map_of_mem (f := fun t => Leaf.omegaTotal l r t mu) hm)

end TTS
