import Verif.Proofs.FloatExact
import Verif.Proofs.FloatGeneral

/-! Exact arithmetic is a possible run of the floating point sketch. -/

namespace TTS
open Finset ND

section
variable {u : ℝ}

theorem flScan_exact {step : ℕ → ND ℝ → ND ℝ → ND ℝ → Prop} {f : ℕ → ND ℝ → ND ℝ → ND ℝ}
    (h : ∀ mu P C, step mu P C (f mu P C)) : ∀ (Cs : List (ND ℝ)) (mu : ℕ) (P : ND ℝ),
    flScan step mu P Cs (ttScan f mu P Cs)
  | [], _, _ => rfl
  | C :: Cs, mu, P => ⟨_, _, h mu P C, flScan_exact h Cs (mu + 1) _, rfl⟩

theorem flRun_exact {first : ND ℝ → ND ℝ → Prop} {g : ND ℝ → ND ℝ} {step : ℕ → ND ℝ → ND ℝ → ND ℝ → Prop}
    {f : ℕ → ND ℝ → ND ℝ → ND ℝ} (h1 : ∀ C, first C (g C)) (h : ∀ mu P C, step mu P C (f mu P C)) :
    ∀ Cs : List (ND ℝ), flRun first step Cs (ttRun g f Cs)
  | [] => rfl
  | C :: Cs => ⟨_, h1 C, flScan_exact h Cs 1 _⟩

theorem foldl_scan (f : ND ℝ → ND ℝ → ND ℝ) : ∀ (Cs : List (ND ℝ)) (mu : ℕ) (P : ND ℝ) (acc : List (ND ℝ)),
    (Cs.foldl (fun (st : ND ℝ × List (ND ℝ)) C => (f st.1 C, st.2 ++ [f st.1 C])) (P, acc ++ [P])).2
      = acc ++ ttScan (fun _ => f) mu P Cs
  | [], _, _, _ => rfl
  | C :: Cs, mu, P, acc => by
    rw [List.foldl_cons, foldl_scan f Cs (mu + 1)]
    simp [ttScan]

theorem partialDense_exact (hu : 0 ≤ u) (X : TT ℝ) : X.FlPartialDenseLR u X.partialDenseLR := by
  unfold TT.FlPartialDenseLR TT.partialDenseLR
  cases X.cores with
  | nil => rfl
  | cons C Cs =>
    simp only
    have := foldl_scan (fun P core => (ND.es_ij_jkl_ikl P core).reshape
        [(ND.es_ij_jkl_ikl P core).dim 0 * (ND.es_ij_jkl_ikl P core).dim 1, (ND.es_ij_jkl_ikl P core).dim 2])
      Cs.dropLast 1 (C.reshape [C.dim 0 * C.dim 1, C.dim 2]) []
    rw [List.nil_append, List.nil_append] at this
    rw [this]
    exact flScan_exact (fun mu P C => ⟨_, FlEinsum.exact hu _ (by simp) _, rfl⟩) _ _ _

theorem sketchOwn_exact (hu : 0 ≤ u) {env : Env ℝ} {D : DRM ℝ} {X : Leaf ℝ} {out : List (ND ℝ)}
    (h : D.sketchOwn env X = .ok out) : D.FlSketchOwn u env X out := by
  unfold DRM.FlSketchOwn
  have h' := h
  unfold DRM.sketchOwn at h'
  split
  · rename_i mats X hd
    rw [hd] at h'
    simp only [Except.ok.injEq] at h'
    refine ⟨_, (mats.zip X.partialDenseLR).map (fun p => p.1.matmul p.2), partialDense_exact hu X, ?_, ?_⟩
    · generalize mats.zip X.partialDenseLR = l
      clear * - hu
      induction l with
      | nil => exact .nil
      | cons p l ih => exact .cons (FlMatmul.exact hu _ _) ih
    · rw [← h', List.map_map, List.zip_eq_zipWith, List.map_zipWith]
      rfl
  · rename_i cores X hd
    rw [hd] at h'
    simp only [Except.ok.injEq] at h'
    exact ⟨ttSketchSparse cores X, flRun_exact (fun C => by rfl) (fun mu P C => FlEinsum.exact hu _ (by simp) _) _, h'.symm⟩
  · rename_i cores X hd
    rw [hd] at h'
    simp only [Except.ok.injEq] at h'
    exact ⟨_, flRun_exact (fun C => FlEinsum.exact hu _ (by simp) _)
      (fun mu P C => FlEinsum.exact hu _ (by simp) _) _, h'.symm⟩
  · rename_i cores X hd
    rw [hd] at h'
    simp only [Except.ok.injEq] at h'
    exact ⟨_, flRun_exact (fun C => FlEinsum.exact hu _ (by simp) _)
      (fun mu P C => FlEinsum.exact hu _ (by simp) _) _, h'.symm⟩
  · rename_i cores X hd
    rw [hd] at h'
    simp only [Except.ok.injEq] at h'
    exact ⟨ttSketchDense cores, flRun_exact (fun C => by rfl) (fun mu P C => ⟨_, FlEinsum.exact hu _ (by simp) _, rfl⟩) _, h'.symm⟩
  · rename_i cores X hd
    rw [hd] at h'
    simp only at h'
    split_ifs at h' with hok
    simp only [Except.ok.injEq] at h'
    refine ⟨hok, ?_⟩
    rw [← h']
    exact flRun_exact (fun C => ⟨_, FlEinsum.exact hu _ (by simp) _, rfl⟩)
      (fun mu P C => ⟨_, _, FlEinsum.exact hu _ (by simp) _, FlEinsum.exact hu _ (by simp) _, rfl⟩) _
  · exact h

theorem sketch_exact (hu : 0 ≤ u) {env : Env ℝ} {D : DRM ℝ} {X : Leaf ℝ} {out : List (ND ℝ)}
    (h : D.sketch env X = .ok out) : D.FlSketch u env X out := by
  unfold DRM.sketch at h
  split_ifs at h with h1 h2 h3
  · cases hs : D.sketchOwn env X.T with
    | error e => rw [hs] at h; simp [Except.map] at h
    | ok l =>
      rw [hs] at h
      simp only [Except.map, Except.ok.injEq] at h
      refine ⟨by simpa using h1, by simpa using h2, ?_⟩
      rw [if_pos h3]
      exact ⟨l, sketchOwn_exact hu hs, h.symm⟩
  · refine ⟨by simpa using h1, by simpa using h2, ?_⟩
    rw [if_neg h3]
    exact sketchOwn_exact hu h

theorem mulCols_exact (hu : 0 ≤ u) (A : ND ℝ) (v : List ℝ) : FlMulCols u A v (A.mulCols v) := by
  refine flND_exact fun i hi => ?_
  replace hi : InR [A.dim 0, A.dim 1] i := hi
  unfold ND.mulCols
  rw [show A.abs.dim 0 = A.dim 0 from rfl, show A.abs.dim 1 = A.dim 1 from rfl, ofFn_get hi, ofFn_get hi, abs_get]
  have : (v.map (|·|)).getD (i.getD 1 0) 0 = |v.getD (i.getD 1 0) 0| := by
    generalize i.getD 1 0 = k
    simp only [List.getD_eq_getElem?_getD, List.getElem?_map]
    cases v[k]? <;> simp
  rw [this]
  exact flVal_mul_exact hu _ _

theorem omegaLeaf_exact (hu : 0 ≤ u) (X : Leaf ℝ) (mu : ℕ) (l r : ND ℝ) :
    FlOmegaLeaf u X mu l r (omegaLeaf X mu l r) := by
  cases X with
  | sparse X => exact ⟨_, mulCols_exact hu _ _, FlMatmul.exact hu _ _⟩
  | tt X => exact FlMatmul.exact hu _ _
  | cp X => exact FlMatmul.exact hu _ _
  | dense X => exact ⟨_, FlMatmul.exact hu _ _, FlMatmul.exact hu _ _⟩
  | tucker X => exact ⟨_, FlMatmul.exact hu _ _, FlMatmul.exact hu _ _⟩

/-- sums over a list -/
theorem flVal_list (hu : 0 ≤ u) {α : Type*} {m : ℕ} {f g : α → ℝ} : ∀ ts : List α, ts ≠ [] →
    (∀ t ∈ ts, ∃ k ≤ m, FlVal u k (f t) (g t) (f t)) →
    ∃ k ≤ m + (ts.length - 1), FlVal u k (ts.map f).sum (ts.map g).sum (ts.map f).sum
  | [], h, _ => absurd rfl h
  | [t], _, h => by
    obtain ⟨k, hk, hv⟩ := h t (by simp)
    exact ⟨k, by simpa using hk, by simpa using hv⟩
  | t :: t' :: ts, _, h => by
    obtain ⟨k, hk, hv⟩ := h t (by simp)
    obtain ⟨l, hl, hw⟩ := flVal_list hu (t' :: ts) (by simp) fun s hs => h s (by simp at hs ⊢; tauto)
    have := FlVal.add hv hw (δ := 0) (by simpa using hu)
    refine ⟨max k l + 1, by simp only [List.length_cons] at hl ⊢; omega, ?_⟩
    simp only [List.map_cons, List.sum_cons] at this ⊢
    simpa using this

theorem flVal_mask (hu : 0 ≤ u) {m : ℕ} {f g : ℕ → ℝ} (X : Sparse ℝ) (mu j : ℕ) (hm : m ≤ 2)
    (h : ∀ t, ∃ k ≤ m, FlVal u k (f t) (g t) (f t)) :
    ∃ k ≤ X.nnz + 1, FlVal u k ((X.mask mu j).map f).sum ((X.mask mu j).map g).sum ((X.mask mu j).map f).sum := by
  have hl : (X.mask mu j).length ≤ X.nnz := by
    unfold Sparse.mask
    exact (List.length_filter_le _ _).trans (by simp)
  by_cases h0 : X.mask mu j = []
  · rw [h0]; exact ⟨0, by omega, by simpa using FlVal.exact (u := u) 0⟩
  · obtain ⟨k, hk, hv⟩ := flVal_list hu _ h0 fun t _ => h t
    have := List.length_pos_iff.2 h0
    exact ⟨k, by omega, hv⟩

theorem abs_mask (X : Sparse ℝ) (mu j : ℕ) : X.abs.mask mu j = X.mask mu j := by
  have h1 : X.abs.nnz = X.nnz := by simp [Sparse.abs, Sparse.nnz]
  have h2 : X.abs.row mu = X.row mu := by simp [Sparse.abs, Sparse.row, List.map_map, Function.comp_def]
  unfold Sparse.mask
  rw [h1, h2]

theorem abs_vals (X : Sparse ℝ) (e : ℕ) :
    (X.abs.entries.map Prod.snd).getD e 0 = |(X.entries.map Prod.snd).getD e 0| := by
  simp only [Sparse.abs, List.map_map, List.getD_eq_getElem?_getD, List.getElem?_map]
  cases X.entries[e]? <;> simp

theorem flVal_mul3 (hu : 0 ≤ u) (x y z : ℝ) :
    ∃ k ≤ 2, FlVal u k (x * y * z) (|x| * |y| * |z|) (x * y * z) := by
  have h1 := FlVal.mul (FlVal.exact (u := u) x) (FlVal.exact y) (δ := 0) (by simpa using hu)
  have := FlVal.mul h1 (FlVal.exact z) (δ := 0) (by simpa using hu)
  exact ⟨2, le_rfl, by simpa using this⟩

/-- one slice -/
theorem psiSlice_exact (hu : 0 ≤ u) {X : Sparse ℝ} {mu j : ℕ} {l r : Option (ND ℝ)} {f : ℕ → ℕ → ℝ}
    (h : psiSparseSlice X mu j l r = .ok f) :
    ∃ g, psiSparseSlice X.abs mu j (l.map ND.abs) (r.map ND.abs) = .ok g ∧
      ∀ a b, ∃ k ≤ X.nnz + 1, FlVal u k (f a b) (g a b) (f a b) := by
  have hs : X.abs.shape = X.shape := rfl
  unfold psiSparseSlice at h ⊢
  simp only [hs, abs_mask] at h ⊢
  split_ifs at h ⊢ with h1 h2
  · cases r with
    | none => simp at h
    | some r =>
      simp only [Except.ok.injEq] at h
      subst h
      refine ⟨_, rfl, fun a b => ?_⟩
      simp only [abs_vals, abs_get]
      exact flVal_mask hu X mu j one_le_two fun e => flVal_mul_exact hu _ _
  · cases l with
    | none => simp at h
    | some l =>
      simp only [Except.ok.injEq] at h
      subst h
      refine ⟨_, rfl, fun a b => ?_⟩
      simp only [abs_vals, abs_get]
      exact flVal_mask hu X mu j one_le_two fun e => flVal_mul_exact hu _ _
  · cases l with
    | none => simp at h
    | some l =>
      cases r with
      | none => simp at h
      | some r =>
        simp only [Except.ok.injEq] at h
        subst h
        refine ⟨_, rfl, fun a b => ?_⟩
        simp only [abs_vals, abs_get]
        exact flVal_mask hu X mu j le_rfl fun e => flVal_mul3 hu _ _ _

end

theorem mapM_ok_forall₂ {α β ε : Type*} {f : α → Except ε β} : ∀ {l : List α} {out : List β},
    l.mapM f = .ok out → List.Forall₂ (fun a b => f a = .ok b) l out
  | [], out, h => by
    simp only [List.mapM_nil, pure, Except.pure, Except.ok.injEq] at h
    subst h; exact .nil
  | a :: l, out, h => by
    rw [List.mapM_cons] at h
    cases hf : f a with
    | error e => rw [hf] at h; simp [bind, Except.bind] at h
    | ok b =>
      cases hm : l.mapM f with
      | error e => rw [hf, hm] at h; simp [bind, Except.bind] at h
      | ok bs =>
        rw [hf, hm] at h
        simp only [bind, Except.bind, pure, Except.pure, Except.ok.injEq] at h
        subst h
        exact .cons hf (mapM_ok_forall₂ hm)

theorem forall₂_mapM_ok {α β ε : Type*} {f : α → Except ε β} {l : List α} {out : List β}
    (h : List.Forall₂ (fun a b => f a = .ok b) l out) : l.mapM f = .ok out := by
  induction h with
  | nil => rfl
  | cons h1 _ ih => rw [List.mapM_cons, h1, ih]; rfl

section
variable {u : ℝ}

theorem psiSparse_exact (hu : 0 ≤ u) {X : Sparse ℝ} {mu : ℕ} {sh : List ℕ} {l r : Option (ND ℝ)} {P : ND ℝ}
    (h : psiSparse X mu sh l r = .ok P) : FlPsiSparse u X mu sh l r P := by
  have h' := h
  unfold psiSparse at h
  cases hm : (List.range (sh.getD 1 0)).mapM fun j => psiSparseSlice X mu j l r with
  | error e => rw [hm] at h; simp at h
  | ok fs =>
    rw [hm] at h
    simp only [Except.ok.injEq] at h
    have hf := mapM_ok_forall₂ hm
    have key : ∃ gs, List.Forall₂ (fun j g => psiSparseSlice X.abs mu j (l.map ND.abs) (r.map ND.abs) = .ok g)
        (List.range (sh.getD 1 0)) gs ∧ List.Forall₂ (fun (f g : ℕ → ℕ → ℝ) =>
          ∀ a b, ∃ k ≤ X.nnz + 1, FlVal u k (f a b) (g a b) (f a b)) fs gs := by
      clear hm h h'
      generalize List.range (sh.getD 1 0) = js at hf
      induction hf with
      | nil => exact ⟨[], .nil, .nil⟩
      | cons h1 _ ih =>
        obtain ⟨gs, a, b⟩ := ih
        obtain ⟨g, e, hg⟩ := psiSlice_exact hu h1
        exact ⟨g :: gs, .cons e a, .cons hg b⟩
    obtain ⟨gs, k1, k2⟩ := key
    have e2 : psiSparse X.abs mu sh (l.map ND.abs) (r.map ND.abs) = .ok (ND.ofFn sh fun i =>
      (gs.getD (i.getD 1 0) fun _ _ => 0) (i.getD 0 0) (i.getD 2 0)) := by
      unfold psiSparse
      rw [forall₂_mapM_ok k1]
    refine ⟨P, _, h', e2, flND_exact fun i hi => ?_⟩
    subst h
    replace hi : InR sh i := hi
    rw [ofFn_get hi, ofFn_get hi]
    have : ∀ k, ∀ a b, ∃ n ≤ X.nnz + 1, FlVal u n ((fs.getD k fun _ _ => 0) a b) ((gs.getD k fun _ _ => 0) a b)
        ((fs.getD k fun _ _ => 0) a b) := by
      clear * - k2
      induction k2 with
      | nil => intro k a b; exact ⟨0, by omega, by simpa using FlVal.exact (u := u) 0⟩
      | cons h1 _ ih =>
        intro k a b
        cases k with
        | zero => exact h1 a b
        | succ k => exact ih k a b
    exact this _ _ _

theorem psiCore_exact (hu : 0 ≤ u) {A : ND ℝ} {l r : Option (ND ℝ)} {P : ND ℝ} (h : psiCore A l r = .ok P) :
    FlPsiCore u A l r P := by
  cases l <;> cases r <;> simp only [psiCore, Except.ok.injEq, reduceCtorEq] at h <;> subst h <;>
    exact FlEinsum.exact hu _ (by simp) _

theorem psiLeaf_exact (hu : 0 ≤ u) {X : Leaf ℝ} {mu : ℕ} {sh : List ℕ} {l r : Option (ND ℝ)} {P : ND ℝ}
    (h : psiLeaf X mu sh l r = .ok P) : FlPsiLeaf u X mu sh l r P := by
  cases X with
  | sparse X => exact psiSparse_exact hu h
  | tt X => exact psiCore_exact hu h
  | cp X =>
    cases l <;> cases r <;> simp only [psiLeaf, psiCP, Except.ok.injEq, reduceCtorEq] at h <;> subst h
    · exact ⟨_, FlEinsum.exact hu _ (by simp) _, rfl⟩
    · exact ⟨_, FlEinsum.exact hu _ (by simp) _, rfl⟩
    · exact FlEinsum.exact hu _ (by simp) _
  | dense X =>
    cases l <;> cases r <;> simp only [psiLeaf, psiDense, Except.ok.injEq, reduceCtorEq] at h <;> subst h
    · exact ⟨_, FlMatmul.exact hu _ _, rfl⟩
    · exact ⟨_, FlMatmul.exact hu _ _, rfl⟩
    · exact FlEinsum.exact hu _ (by simp) _
  | tucker X =>
    simp only [psiLeaf, psiTucker] at h
    split at h
    · simp at h
    · rename_i C hC
      split at h
      · simp at h
      · rename_i Q hQ
        simp only [Except.ok.injEq] at h
        subst h
        exact ⟨C, Q, hC, psiCore_exact hu hQ, FlEinsum.exact hu _ (by simp) _⟩

theorem contr_exact (hu : 0 ≤ u) {env : Env ℝ} {D : DRM ℝ} {X : Tensor ℝ} {c : List (List (ND ℝ))}
    (h : D.contr env X = .ok c) : D.FlContr u env X c := by
  unfold DRM.FlContr
  cases X with
  | leaf X =>
    unfold DRM.contr at h
    cases hs : D.sketch env X with
    | error e => simp only [hs, Except.map] at h; cases h
    | ok l =>
      simp only [hs, Except.map, Except.ok.injEq] at h
      subst h
      exact .cons (sketch_exact hu hs) .nil
  | sum X =>
    simp only [DRM.contr] at h
    split_ifs at h
    exact (mapM_ok_forall₂ h).imp fun _ _ h => sketch_exact hu h

theorem foldlM_fl {α : Type*} {g : α → Except PyErr (ND ℝ)} {F : α → ND ℝ → Prop} (hu : 0 ≤ u)
    (hg : ∀ a P, g a = .ok P → F a P) {f : ND ℝ → α → Except PyErr (ND ℝ)}
    (hf : ∀ A a B, f A a = .ok B → ∃ P, g a = .ok P ∧ A.iadd P = .ok B) :
    ∀ (l : List α) (A B : ND ℝ), l.foldlM f A = .ok B →
    flFold (fun s a s' => ∃ P, F a P ∧ s.shape = P.shape ∧ FlAdd u s P s') A l B
  | [], A, B, h => by
    simp only [List.foldlM_nil, pure, Except.pure, Except.ok.injEq] at h
    exact h.symm
  | a :: l, A, B, h => by
    rw [List.foldlM_cons] at h
    cases ha : f A a with
    | error e => rw [ha] at h; simp [bind, Except.bind] at h
    | ok A' =>
      rw [ha] at h
      obtain ⟨P, e, hi⟩ := hf A a A' ha
      unfold ND.iadd at hi
      split_ifs at hi with hsh
      simp only [Except.ok.injEq] at hi
      refine ⟨A', ⟨P, hg a P e, hsh, ?_⟩, foldlM_fl hu hg hf l A' B h⟩
      rw [← hi]; exact FlAdd.exact hu _ _

theorem omegaT_exact (hu : 0 ≤ u) {X : Tensor ℝ} {mu : ℕ} {sh : List ℕ} {ls rs : List (ND ℝ)} {O : ND ℝ}
    (h : omegaT X mu sh ls rs = .ok O) : FlOmegaT u X mu sh ls rs O := by
  cases X with
  | leaf X =>
    simp only [omegaT, Except.ok.injEq] at h
    subst h
    exact omegaLeaf_exact hu _ _ _ _
  | sum X =>
    exact foldlM_fl hu (g := fun t : Leaf ℝ × ND ℝ × ND ℝ => .ok (omegaLeaf t.1 mu t.2.1 t.2.2))
      (F := fun t P => FlOmegaLeaf u t.1 mu t.2.1 t.2.2 P)
      (fun a P e => by cases e; exact omegaLeaf_exact hu _ _ _ _)
      (fun A a B hB => ⟨_, rfl, hB⟩) _ _ _ h

theorem psiT_exact (hu : 0 ≤ u) {X : Tensor ℝ} {mu : ℕ} {sh : List ℕ} {ls rs : List (Option (ND ℝ))} {P : ND ℝ}
    (h : psiT X mu sh ls rs = .ok P) : FlPsiT u X mu sh ls rs P := by
  cases X with
  | leaf X => exact psiLeaf_exact hu h
  | sum X =>
    refine foldlM_fl hu (g := fun t : Leaf ℝ × Option (ND ℝ) × Option (ND ℝ) => psiLeaf t.1 mu sh t.2.1 t.2.2)
      (F := fun t P => FlPsiLeaf u t.1 mu sh t.2.1 t.2.2 P) (fun a P e => psiLeaf_exact hu e)
      (fun A a B hB => ?_) _ _ _ h
    cases hp : psiLeaf a.1 mu sh a.2.1 a.2.2 with
    | error e => rw [hp] at hB; cases hB
    | ok P => rw [hp] at hB; exact ⟨P, rfl, hB⟩

theorem andThen_inv {ε α β : Type*} {x : Except ε α} {f : α → Except ε β} {b : β} (h : x.andThen f = .ok b) :
    ∃ a, x = .ok a ∧ f a = .ok b := by
  cases x with
  | error e => cases h
  | ok a => exact ⟨a, rfl, h⟩

/-- the exact sketch is a floating point sketch -/
theorem general_exact (hu : 0 ≤ u) {env : Env ℝ} {X : Tensor ℝ} {l r : DRM ℝ} {S : Container ℝ}
    (h : generalSketch env X (some l) r .streaming = .ok S) : FlGeneralSketch u env X l r S := by
  unfold generalSketch at h
  obtain ⟨lc, h1, h⟩ := andThen_inv h
  obtain ⟨rc, h2, h⟩ := andThen_inv h
  obtain ⟨om, h3, h⟩ := andThen_inv h
  obtain ⟨psi, h4, h⟩ := andThen_inv h
  simp only [Except.ok.injEq] at h
  exact ⟨lc, rc, om, psi, contr_exact hu h1, contr_exact hu h2,
    (mapM_ok_forall₂ h3).imp fun _ _ h => omegaT_exact hu h,
    (mapM_ok_forall₂ h4).imp fun _ _ h => psiT_exact hu h, h.symm⟩

theorem containerAdd_exact (hu : 0 ≤ u) (A B : Container ℝ) : FlContainerAdd u A B (A.add B) := by
  have : ∀ l : List (ND ℝ × ND ℝ), List.Forall₂ (fun p P => FlAdd u p.1 p.2 P) l (l.map fun p => p.1.add p.2) := by
    intro l
    induction l with
    | nil => exact .nil
    | cons p l ih => exact .cons (FlAdd.exact hu _ _) ih
  refine ⟨_, _, this _, this _, ?_⟩
  unfold Container.add
  rw [List.zip_eq_zipWith, List.zip_eq_zipWith, List.map_zipWith, List.map_zipWith]

end
end TTS
