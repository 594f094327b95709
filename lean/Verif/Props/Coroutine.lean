import Verif.Props.ObjSketch
import Verif.Proofs.Orth
import Verif.Props.Orth
import Verif.Spec.Coroutine

/-!
# C84: the generators behind orthogonal and hmt sketches
-/

namespace TTS.Props

open TTS Finset

variable {K : Type*} [CommRing K]

/-! ### One basic tensor -/

/-- The running contraction after `k + 1` cores. -/
def runP (rank0 : ℕ) (X : Leaf K) (full : List (ND K)) : ℕ → ND K
  | 0 => match LeafGen.first rank0 (full.getD 0 (ND.zeros [])) X with
    | .ok P => P
    | .error _ => ND.zeros []
  | k + 1 => LeafGen.step (k + 1) (runP rank0 X full k) (full.getD (k + 1) (ND.zeros [])) X

theorem runP_append {rank0 : ℕ} {X : Leaf K} {full pad : List (ND K)} : ∀ {k : ℕ}, k < full.length →
    runP rank0 X (full ++ pad) k = runP rank0 X full k
  | 0, h => by simp only [runP, List.getD_append _ _ _ _ h]
  | k + 1, h => by
    simp only [runP, List.getD_append _ _ _ _ h]
    rw [runP_append (by omega)]

theorem ttScan_get (step : ℕ → ND K → ND K → ND K) (S : ℕ → ND K) : ∀ (Cs : List (ND K)) (mu : ℕ) (P : ND K), P = S mu →
    (∀ k < Cs.length, S (mu + k + 1) = step (mu + k + 1) (S (mu + k)) (Cs.getD k (ND.zeros []))) →
    (ttScan step (mu + 1) P Cs).length = Cs.length + 1 ∧
      ∀ k < Cs.length + 1, (ttScan step (mu + 1) P Cs).getD k (ND.zeros []) = S (mu + k)
  | [], mu, P, h, _ => ⟨rfl, fun k hk => by
      obtain rfl : k = 0 := by simpa using hk
      simpa [ttScan] using h⟩
  | C :: Cs, mu, P, h, hs => by
    have h0 := hs 0 (by simp)
    obtain ⟨h1, h2⟩ := ttScan_get step S Cs (mu + 1) (step (mu + 1) P C) (by rw [h]; simpa using h0.symm) fun k hk => by
      have := hs (k + 1) (by simpa using hk)
      rw [List.getD_cons_succ] at this
      rw [show mu + 1 + k = mu + (k + 1) by omega]
      exact this
    refine ⟨by simp [ttScan, h1], fun k hk => ?_⟩
    cases k with
    | zero => simpa [ttScan] using h
    | succ k =>
      simp only [ttScan, List.getD_cons_succ]
      rw [h2 k (by simpa using hk), show mu + 1 + k = mu + (k + 1) by omega]

theorem ttRun_get {rank0 : ℕ} {X : Leaf K} {full : List (ND K)} {first : ND K → ND K} {step : ℕ → ND K → ND K → ND K}
    (h1 : full ≠ [] → LeafGen.first rank0 (full.getD 0 (ND.zeros [])) X = .ok (first (full.getD 0 (ND.zeros []))))
    (h2 : ∀ mu P C, LeafGen.step mu P C X = step mu P C) :
    (ttRun first step full).length = full.length ∧
      ∀ k < full.length, (ttRun first step full).getD k (ND.zeros []) = runP rank0 X full k := by
  match full with
  | [] => exact ⟨rfl, fun k hk => absurd hk (by simp)⟩
  | C :: Cs =>
    have h1 := h1 (by simp)
    have := ttScan_get step (runP rank0 X (C :: Cs)) Cs 0 (first C) (by
      show _ = runP _ _ _ 0
      simp only [runP, h1]; rfl) (fun k _ => by
      rw [Nat.zero_add]
      show LeafGen.step (k + 1) _ ((C :: Cs).getD (k + 1) _) X = _
      rw [h2, List.getD_cons_succ])
    simpa [ttRun] using this

theorem sliceCols_get (B : DRMBase) (l : List (ND K)) (k : ℕ) (hk : k < l.length) :
    (B.sliceCols l).getD k (ND.zeros []) = (l.getD k (ND.zeros [])).cols (B.rankMin.getD k 0) (B.rankMax.getD k 0) := by
  unfold DRMBase.sliceCols
  rw [List.getD_eq_getElem _ _ (by simpa using hk), List.getD_eq_getElem _ _ hk]
  simp

theorem sliceCols_len (B : DRMBase) (l : List (ND K)) : (B.sliceCols l).length = l.length := by
  simp [DRMBase.sliceCols]

/-- What the list model of the contractions says, in terms of the bodies of the generators. -/
theorem orth_sketch_spec (env : Env K) {lr sh : List ℕ} {full : List (ND K)} (hne : full ≠ []) {X : Leaf K} :
    (sh = X.shape → (∃ P, LeafGen.first ((orthDRM lr sh ([] : List (ND K))).rank.getD 0 0) (full.getD 0 (ND.zeros [])) X = .ok P) →
      ∃ l, (orthDRM lr sh full).sketch env X = .ok l) ∧
    ∀ l, (orthDRM lr sh full).sketch env X = .ok l → sh = X.shape ∧
      (∃ P, LeafGen.first ((orthDRM lr sh ([] : List (ND K))).rank.getD 0 0) (full.getD 0 (ND.zeros [])) X = .ok P) ∧
      l.length = full.length ∧ ∀ k < full.length, l.getD k (ND.zeros [])
        = LeafGen.out (orthDRM lr sh ([] : List (ND K))).toDRMBase k
            (runP ((orthDRM lr sh ([] : List (ND K))).rank.getD 0 0) X full k) X := by
  have hs : (orthDRM lr sh full).data.supports X = true := by cases X <;> rfl
  by_cases hsh : sh = X.shape
  swap
  · have he : (orthDRM lr sh full).sketch env X = .error .valueError := by
      unfold DRM.sketch
      rw [hs, if_neg (by decide), if_pos (show (orthDRM lr sh full).shape ≠ X.shape from hsh)]
    exact ⟨fun h => absurd h hsh, fun l h => by rw [he] at h; cases h⟩
  have he : (orthDRM lr sh full).sketch env X = (orthDRM lr sh full).sketchOwn env X := by
    unfold DRM.sketch
    rw [hs, if_neg (by decide), if_neg (show ¬ ((orthDRM lr sh full).shape ≠ X.shape) from fun h => h hsh)]
    exact if_neg (by simp [orthDRM])
  rw [he]
  generalize hB : (orthDRM lr sh ([] : List (ND K))).toDRMBase = B
  have hB' : (orthDRM lr sh full).toDRMBase = B := hB
  have key : ∀ l : List (ND K), (orthDRM lr sh full).sketchOwn env X = .ok l →
      (∃ P, LeafGen.first (B.rank.getD 0 0) (full.getD 0 (ND.zeros [])) X = .ok P) →
      (l.length = full.length ∧ ∀ k < full.length, l.getD k (ND.zeros [])
        = LeafGen.out B k (runP (B.rank.getD 0 0) X full k) X) →
      ((sh = X.shape → (∃ P, LeafGen.first (B.rank.getD 0 0) (full.getD 0 (ND.zeros [])) X = .ok P) →
      ∃ l, (orthDRM lr sh full).sketchOwn env X = .ok l) ∧
      ∀ l, (orthDRM lr sh full).sketchOwn env X = .ok l → sh = X.shape ∧
      (∃ P, LeafGen.first (B.rank.getD 0 0) (full.getD 0 (ND.zeros [])) X = .ok P) ∧
      l.length = full.length ∧ ∀ k < full.length, l.getD k (ND.zeros [])
        = LeafGen.out B k (runP (B.rank.getD 0 0) X full k) X) := by
    intro l h1 h2 h3
    refine ⟨fun _ _ => ⟨l, h1⟩, fun l' h => ?_⟩
    rw [h1] at h
    injection h with h
    subst h
    exact ⟨hsh, h2, h3⟩
  cases X with
  | sparse X =>
    have r := ttRun_get (rank0 := B.rank.getD 0 0) (X := .sparse X) (full := full)
      (first := fun C => (C.takeAxis1 (X.row 0)).reshape (C.takeAxis1 (X.row 0)).shape.tail)
      (step := fun mu P C => ND.es_ijk_ji_jk (C.takeAxis1 (X.row mu)) P) (fun _ => rfl) (fun _ _ _ => rfl)
    refine key ((B.sliceCols (ttSketchSparse full X)).map ND.matT) (by rw [← hB']; rfl) ⟨_, rfl⟩ ⟨?_, fun k hk => ?_⟩
    · rw [List.length_map, sliceCols_len]; exact r.1
    · rw [List.getD_eq_getElem _ _ (by rw [List.length_map, sliceCols_len]; exact lt_of_lt_of_eq hk r.1.symm), List.getElem_map,
        ← List.getD_eq_getElem _ (ND.zeros []) (by rw [sliceCols_len]; exact lt_of_lt_of_eq hk r.1.symm),
        sliceCols_get B (ttSketchSparse full X) k (lt_of_lt_of_eq hk r.1.symm)]
      show ((ttRun _ _ full).getD k _ |>.cols _ _).matT = _
      rw [r.2 k hk]; rfl
  | tt X =>
    have r := ttRun_get (rank0 := B.rank.getD 0 0) (X := .tt X) (full := full)
      (first := fun C => ND.es_ijk_ijl_kl (X.cores.getD 0 (ND.zeros [])) C)
      (step := fun mu P C => ND.es_ij_ikl_jkm_lm P (X.cores.getD mu (ND.zeros [])) C) (fun _ => rfl) (fun _ _ _ => rfl)
    refine key (B.sliceCols (ttSketchTT full X)) (by rw [← hB']; rfl) ⟨_, rfl⟩ ⟨?_, fun k hk => ?_⟩
    · rw [sliceCols_len]; exact r.1
    · rw [sliceCols_get B (ttSketchTT full X) k (lt_of_lt_of_eq hk r.1.symm)]
      show ((ttRun _ _ full).getD k _ |>.cols _ _) = _
      rw [r.2 k hk]; rfl
  | cp X =>
    have r := ttRun_get (rank0 := B.rank.getD 0 0) (X := .cp X) (full := full)
      (first := fun C => ND.es_ij_lik_jk (X.cores.getD 0 (ND.zeros [])) C)
      (step := fun mu P C => ND.es_ij_ki_jkl_il P (X.cores.getD mu (ND.zeros [])) C) (fun _ => rfl) (fun _ _ _ => rfl)
    refine key (B.sliceCols (ttSketchCP full X)) (by rw [← hB']; rfl) ⟨_, rfl⟩ ⟨?_, fun k hk => ?_⟩
    · rw [sliceCols_len]; exact r.1
    · rw [sliceCols_get B (ttSketchCP full X) k (lt_of_lt_of_eq hk r.1.symm)]
      show ((ttRun _ _ full).getD k _ |>.cols _ _) = _
      rw [r.2 k hk]; rfl
  | dense X =>
    have r := ttRun_get (rank0 := B.rank.getD 0 0) (X := .dense X) (full := full)
      (first := fun C => C.reshape [C.dim 0 * C.dim 1, C.dim 2])
      (step := fun _ P C =>
        let N := ND.es_ij_jkl_ikl P C
        N.reshape [N.dim 0 * N.dim 1, N.dim 2]) (fun _ => rfl) (fun _ _ _ => rfl)
    refine key ((ttSketchDense full).map ND.matT) (by rfl) ⟨_, rfl⟩ ⟨?_, fun k hk => ?_⟩
    · rw [List.length_map]; exact r.1
    · rw [List.getD_eq_getElem _ _ (by rw [List.length_map]; exact lt_of_lt_of_eq hk r.1.symm), List.getElem_map,
        ← List.getD_eq_getElem (ttSketchDense full) (ND.zeros [])
          (show k < (ttSketchDense full).length from lt_of_lt_of_eq hk r.1.symm)]
      show ((ttRun _ _ full).getD k _).matT = _
      rw [r.2 k hk]; rfl
  | tucker X =>
    have hh : full.headD (ND.zeros []) = full.getD 0 (ND.zeros []) := by cases full <;> rfl
    by_cases hr : tuckerReshapeOk full (B.rank.getD 0 0) X
    · have hr' := hr
      unfold tuckerReshapeOk at hr'
      rw [hh] at hr'
      have hf : LeafGen.first (B.rank.getD 0 0) (full.getD 0 (ND.zeros [])) (.tucker X)
          = .ok ((ND.es_ijk_jl_ilk (full.getD 0 (ND.zeros [])) (X.factors.getD 0 (ND.zeros [])).matT).reshape
            [X.rank.getD 0 0, B.rank.getD 0 0]) := if_pos hr'
      have r := ttRun_get (rank0 := B.rank.getD 0 0) (X := .tucker X) (full := full)
        (first := fun C => (ND.es_ijk_jl_ilk C (X.factors.getD 0 (ND.zeros [])).matT).reshape
          [X.rank.getD 0 0, B.rank.getD 0 0])
        (step := fun mu P C =>
          let cr := ND.es_jkl_km_jml C (X.factors.getD mu (ND.zeros [])).matT
          let N := ND.es_ij_jml_iml P cr
          N.reshape [N.dim 0 * N.dim 1, N.dim 2]) (fun _ => hf) (fun _ _ _ => rfl)
      refine key (ttSketchTucker full (B.rank.getD 0 0) X) ?_ ⟨_, hf⟩ ⟨r.1, fun k hk => ?_⟩
      · show (if tuckerReshapeOk full ((orthDRM lr sh full).toDRMBase.rank.getD 0 0) X then _ else _) = _
        rw [hB', if_pos hr]
      · show ((ttRun _ _ full).getD k _) = _
        rw [r.2 k hk]; rfl
    · have e1 : (orthDRM lr sh full).sketchOwn env (.tucker X) = .error .valueError := by
        show (if tuckerReshapeOk full ((orthDRM lr sh full).toDRMBase.rank.getD 0 0) X then _ else _) = _
        rw [hB', if_neg hr]
      refine ⟨fun _ h => ?_, fun l h => by rw [e1] at h; cases h⟩
      obtain ⟨P, hP⟩ := h
      unfold tuckerReshapeOk at hr
      rw [hh] at hr
      have : LeafGen.first (B.rank.getD 0 0) (full.getD 0 (ND.zeros [])) (.tucker X) = .error .valueError := if_neg hr
      rw [this] at hP; cases hP

/-! ### `next` -/

/-- The generator has yielded `k` arrays computed with the first cores of `full`. -/
def LeafAt (rank0 : ℕ) (full : List (ND K)) (k : ℕ) (X : Leaf K) (g : LeafGen K) : Prop :=
  g.done = false ∧ g.mu = k ∧ (0 < k → g.P = runP rank0 X full (k - 1))

theorem leaf_core {B : DRMBase} {cs : List (ND K)} {mu : ℕ} (h1 : mu < cs.length) (h2 : mu < B.shape.length - 1) (X : Leaf K) :
    LeafGen.core B cs mu X = .ok (cs.getD mu (ND.zeros [])) := by
  have h3 : cs[mu]? = some (cs.getD mu (ND.zeros [])) := by
    rw [List.getElem?_eq_getElem h1, List.getD_eq_getElem _ _ h1]
  have h4 : mu = 0 ∨ mu < B.shape.length - 1 := .inr h2
  cases X <;> simp only [LeafGen.core, h3, if_pos h2, if_pos h4]

theorem leaf_core_early {B : DRMBase} {cs : List (ND K)} {mu : ℕ} (h1 : cs.length ≤ mu) (X : Leaf K) :
    ∃ e, LeafGen.core B cs mu X = .error e := by
  have h3 : cs[mu]? = none := List.getElem?_eq_none h1
  cases X <;> simp only [LeafGen.core, h3]
  · split_ifs <;> exact ⟨_, rfl⟩
  · exact ⟨_, rfl⟩
  all_goals split_ifs <;> exact ⟨_, rfl⟩

theorem prefix_getD {cs full : List (ND K)} (h : cs <+: full) {k : ℕ} (hk : k < cs.length) (z : ND K) :
    cs.getD k z = full.getD k z := by
  obtain ⟨t, rfl⟩ := h
  rw [List.getD_append _ _ _ _ hk]

/-- One call of `next` on the generator of a basic tensor. -/
theorem leaf_next {B : DRMBase} {cs full : List (ND K)} {k : ℕ} {X : Leaf K} {g : LeafGen K} (hcs : cs <+: full)
    (hk : k < cs.length) (hd : k < B.shape.length - 1) (hsh : B.shape = X.shape)
    (hf : ∃ P, LeafGen.first (B.rank.getD 0 0) (full.getD 0 (ND.zeros [])) X = .ok P)
    (hg : LeafAt (B.rank.getD 0 0) full k X g) :
    (g.next B cs X).1 = .ok (LeafGen.out B k (runP (B.rank.getD 0 0) X full k) X) ∧
      LeafAt (B.rank.getD 0 0) full (k + 1) X (g.next B cs X).2 := by
  obtain ⟨h1, h2, h3⟩ := hg
  obtain ⟨P0, hf⟩ := hf
  have e : (if g.mu = 0 then LeafGen.first (B.rank.getD 0 0) (cs.getD g.mu (ND.zeros [])) X
      else .ok (LeafGen.step g.mu g.P (cs.getD g.mu (ND.zeros [])) X)) = .ok (runP (B.rank.getD 0 0) X full k) := by
    rw [h2, prefix_getD hcs hk]
    cases k with
    | zero => rw [if_pos rfl, hf]; simp only [runP, hf]
    | succ k => rw [if_neg (by omega), h3 (by omega)]; rfl
  have : g.next B cs X = (.ok (LeafGen.out B k (runP (B.rank.getD 0 0) X full k) X),
      ⟨k + 1, runP (B.rank.getD 0 0) X full k, false⟩) := by
    unfold LeafGen.next
    simp only [h1, Bool.false_eq_true, if_false]
    rw [if_neg (fun h => h.2 hsh), leaf_core (by rw [h2]; exact hk) (by rw [h2]; exact hd)]
    rw [h2] at e
    simp only [h2, e]
  rw [this]
  exact ⟨rfl, rfl, rfl, fun _ => rfl⟩

/-- If the first call of `next` returns, the first core is accepted. -/
theorem leaf_next_ok {B : DRMBase} {cs : List (ND K)} {X : Leaf K} {A : ND K}
    (h : (LeafGen.new.next B cs X).1 = .ok A) : B.shape = X.shape ∧
      ∃ P, LeafGen.first (B.rank.getD 0 0) (cs.getD 0 (ND.zeros [])) X = .ok P := by
  unfold LeafGen.next LeafGen.new at h
  simp only [Bool.false_eq_true, if_false, if_true, true_and] at h
  by_cases hsh : B.shape = X.shape
  · refine ⟨hsh, ?_⟩
    rw [if_neg (fun h => h hsh)] at h
    have hc : ∀ C, LeafGen.core B cs 0 X = .ok C → C = cs.getD 0 (ND.zeros []) := by
      intro C hC
      match cs, hC with
      | [], hC =>
        obtain ⟨e, he⟩ := leaf_core_early (B := B) (cs := []) (mu := 0) (Nat.le_refl 0) X
        rw [he] at hC; cases hC
      | D :: cs, hC =>
        have : LeafGen.core B (D :: cs) 0 X = .ok D ∨ LeafGen.core B (D :: cs) 0 X = .error .stopIteration := by
          cases X <;> simp only [LeafGen.core] <;> (try split_ifs) <;> simp
        rcases this with h | h
        · rw [h] at hC; injection hC with hC; exact hC.symm
        · rw [h] at hC; cases hC
    cases h1 : LeafGen.core B cs 0 X with
    | error e => rw [h1] at h; cases h
    | ok C =>
      rw [h1] at h
      rw [← hc C h1]
      cases h2 : LeafGen.first (B.rank.getD 0 0) C X with
      | error e => simp only [h2] at h; cases h
      | ok P => exact ⟨P, rfl⟩
  · rw [if_pos hsh] at h; cases h

mutual
/-- The generator has yielded `k` tuples computed with the first cores of `full`. -/
def ObjAt (rank0 : ℕ) (full : List (ND K)) (k : ℕ) : Obj K → ObjGen K → Prop
  | .atom (.leaf X), .leaf g => LeafAt rank0 full k X g
  | .sum _ ts, .sum started subs count done =>
    done = false ∧ count = k ∧ (started = false ∧ k = 0 ∨ started = true ∧ 0 < k ∧ ObjAtL rank0 full k ts subs)
  | _, _ => False

/-- The same for lists. -/
def ObjAtL (rank0 : ℕ) (full : List (ND K)) (k : ℕ) : List (Obj K) → List (ObjGen K) → Prop
  | [], [] => True
  | t :: ts, g :: gs => ObjAt rank0 full k t g ∧ ObjAtL rank0 full k ts gs
  | _, _ => False
end

theorem leafAt_append {rank0 : ℕ} {full pad : List (ND K)} {k : ℕ} {X : Leaf K} {g : LeafGen K} (h : LeafAt rank0 full k X g)
    (hk : k ≤ full.length) : LeafAt rank0 (full ++ pad) k X g :=
  ⟨h.1, h.2.1, fun h0 => by rw [h.2.2 h0, runP_append (by omega)]⟩

theorem objAt_append {rank0 : ℕ} {full pad : List (ND K)} {k : ℕ} (hk : k ≤ full.length) {X : Obj K} :
    ∀ {g : ObjGen K}, ObjAt rank0 full k X g → ObjAt rank0 (full ++ pad) k X g := by
  induction X using Obj.induct with
  | atom A =>
    intro g h
    match A, g, h with
    | .leaf X, .leaf g, h => exact leafAt_append h hk
  | sum s ts ih =>
    intro g h
    match g, h with
    | .sum started subs count done, h =>
      simp only [ObjAt] at h ⊢
      refine ⟨h.1, h.2.1, h.2.2.imp id fun h => ⟨h.1, h.2.1, ?_⟩⟩
      have h := h.2.2
      clear * - ih h
      induction ts generalizing subs with
      | nil => match subs, h with | [], _ => trivial
      | cons t ts iht =>
        match subs, h with
        | g :: subs, h => exact ⟨ih t (by simp) h.1, iht (fun t ht => ih t (List.mem_cons_of_mem _ ht)) subs h.2⟩

theorem objAt_new {rank0 : ℕ} {full : List (ND K)} {X : Obj K} (h : X.sketches = []) : ObjAt rank0 full 0 X (ObjGen.new X) := by
  match X, h with
  | .atom (.leaf X), _ => exact ⟨rfl, rfl, fun h => absurd h (by simp)⟩
  | .atom (.sketched S), h => simp [Obj.sketches] at h
  | .sum s ts, _ => exact ⟨rfl, rfl, .inl ⟨rfl, rfl⟩⟩

theorem objAtL_new {rank0 : ℕ} {full : List (ND K)} : ∀ {ts : List (Obj K)}, Obj.sketchesL ts = [] →
    ObjAtL rank0 full 0 ts (ts.map ObjGen.new)
  | [], _ => trivial
  | t :: ts, h => by
    simp only [Obj.sketchesL, List.append_eq_nil_iff] at h
    exact ⟨objAt_new h.1, objAtL_new h.2⟩

theorem supports_orth (B : DRMBase) (cs : List (ND K)) (X : Leaf K) : DRMData.supports (DRM.data ⟨B, .tt cs⟩) X = true := by
  cases X <;> rfl

/-- One call of `next` on the generator of an object. -/
def NextSpec (env : Env K) (lr sh : List ℕ) (cs full : List (ND K)) (k : ℕ) (X : Obj K) : Prop :=
  ∀ c g, X.contr env (orthDRM lr sh full) = .ok c → X.Modes sh.length →
    ObjAt ((orthDRM lr sh ([] : List (ND K))).rank.getD 0 0) full k X g →
    (X.next (orthDRM lr sh ([] : List (ND K))).toDRMBase cs g).1 = .ok (c.pick k) ∧
      ObjAt ((orthDRM lr sh ([] : List (ND K))).rank.getD 0 0) full (k + 1) X
        (X.next (orthDRM lr sh ([] : List (ND K))).toDRMBase cs g).2

theorem nextL_spec {env : Env K} {lr sh : List ℕ} {cs full : List (ND K)} {k : ℕ} : ∀ {ts : List (Obj K)}
    {css : List (Tree (List (ND K)))} {gs : List (ObjGen K)}, (∀ t ∈ ts, NextSpec env lr sh cs full k t) →
    Obj.contrL env (orthDRM lr sh full) ts = .ok css → Obj.ModesL sh.length ts →
    ObjAtL ((orthDRM lr sh ([] : List (ND K))).rank.getD 0 0) full k ts gs →
    ∃ gs', Obj.nextL (orthDRM lr sh ([] : List (ND K))).toDRMBase cs ts gs
        = (.ok (Tree.mapL (fun l => l.getD k (ND.zeros [])) css), gs') ∧
      ObjAtL ((orthDRM lr sh ([] : List (ND K))).rank.getD 0 0) full (k + 1) ts gs'
  | [], css, gs, _, hc, _, hg => by
    have hc : Except.ok [] = Except.ok css := hc
    injection hc with hc
    subst hc
    match gs, hg with
    | [], _ => exact ⟨[], rfl, trivial⟩
  | t :: ts, css, gs, h, hc, hm, hg => by
    obtain ⟨c, cs', h2, h3, rfl⟩ := contrL_ok hc
    match gs, hg with
    | g :: gs, hg =>
      obtain ⟨a1, a2⟩ := h t (by simp) c g h2 hm.1 hg.1
      obtain ⟨gs', b1, b2⟩ := nextL_spec (fun t ht => h t (by simp [ht])) h3 hm.2 hg.2
      refine ⟨(t.next (orthDRM lr sh ([] : List (ND K))).toDRMBase cs g).2 :: gs', ?_, a2, b2⟩
      simp only [Obj.nextL]
      rw [← Prod.mk.eta (p := t.next (orthDRM lr sh ([] : List (ND K))).toDRMBase cs g), a1]
      simp only [b1, Tree.mapL]
      rfl

theorem next_spec {env : Env K} {lr sh : List ℕ} {cs full : List (ND K)} {k : ℕ} (hcs : cs <+: full) (hk : k < cs.length)
    (hd : k < sh.length - 1) (X : Obj K) : NextSpec env lr sh cs full k X := by
  have hne : full ≠ [] := by
    rintro rfl
    rw [List.prefix_nil] at hcs
    subst hcs
    simp at hk
  induction X using Obj.induct with
  | atom A =>
    intro c g hc hm hg
    match A, g, hc, hg with
    | .leaf X, .leaf g, hc, hg =>
      simp only [Obj.contr] at hc
      cases h1 : (orthDRM lr sh full).sketch env X with
      | error e => rw [h1] at hc; cases hc
      | ok l =>
        rw [h1] at hc
        replace hc : Except.ok (Tree.one l) = Except.ok c := hc
        injection hc with hc
        subst hc
        obtain ⟨e1, e2, e3, e4⟩ := (orth_sketch_spec env hne).2 l h1
        obtain ⟨a1, a2⟩ := leaf_next (B := (orthDRM lr sh ([] : List (ND K))).toDRMBase) hcs hk hd e1 e2 hg
        refine ⟨?_, a2⟩
        show ((g.next _ cs X).1).map Tree.one = .ok (Tree.one (l.getD k (ND.zeros [])))
        rw [a1, e4 k (lt_of_lt_of_le hk hcs.length_le)]
        rfl
  | sum s ts ih =>
    intro c g hc hm hg
    match g, hg with
    | .sum started subs count done, hg =>
      simp only [ObjAt] at hg
      obtain ⟨rfl, rfl, hg⟩ := hg
      obtain ⟨-, hs, -⟩ := contr_ok hc
      simp only [Obj.sketches] at hs
      simp only [Obj.contr] at hc
      obtain ⟨-, -, h'⟩ := andThen_ok hc
      clear hc
      cases h1 : Obj.contrL env (orthDRM lr sh full) ts with
      | error e => rw [h1] at h'; cases h'
      | ok css =>
        rw [h1] at h'
        replace h' : Except.ok (Tree.many css) = Except.ok c := h'
        injection h' with h'
        subst h'
        simp only [Obj.Modes] at hm
        have hsubs : ObjAtL ((orthDRM lr sh ([] : List (ND K))).rank.getD 0 0) full count ts
            (if started = true then subs else ts.map ObjGen.new) := by
          rcases hg with ⟨rfl, rfl⟩ | ⟨rfl, -, h⟩
          · exact objAtL_new hs
          · exact h
        obtain ⟨gs', b1, b2⟩ := nextL_spec ih h1 hm.2 hsubs
        have hstart : (if started = true then Except.ok () else ts.forM (Obj.sketchMethod
            ⟨(orthDRM lr sh ([] : List (ND K))).toDRMBase, .tt cs⟩)) = .ok () := by
          split_ifs
          · rfl
          · refine forM_ok fun t ht => sketchMethod_ok ?_ fun u _ => supports_orth _ _ u
            rw [sketchesL_eq, List.flatMap_eq_nil_iff] at hs
            exact hs t ht
        have hcount : ¬ (s.length - 1 ≤ count) := by rw [hm.1]; omega
        have key : (Obj.sum s ts).next (orthDRM lr sh ([] : List (ND K))).toDRMBase cs (.sum started subs count false)
            = (.ok ((Tree.many css).pick count), .sum true gs' (count + 1) false) := by
          simp only [Obj.next, Bool.false_eq_true, if_false]
          rw [hstart]
          simp only [if_neg hcount, b1]
          rfl
        rw [key]
        exact ⟨rfl, rfl, rfl, .inr ⟨rfl, by omega, b2⟩⟩

/-- A call of `next` that needs a core not added yet raises. -/
theorem next_early {B : DRMBase} {cs full : List (ND K)} {rank0 k : ℕ} (hk : cs.length ≤ k) {X : Obj K} :
    ∀ {g : ObjGen K}, X.leaves ≠ [] → X.sketches = [] → ObjAt rank0 full k X g → ∃ e, (X.next B cs g).1 = .error e := by
  induction X using Obj.induct with
  | atom A =>
    intro g _ _ hg
    match A, g, hg with
    | .leaf X, .leaf g, hg =>
      obtain ⟨h1, h2, -⟩ := hg
      obtain ⟨e, he⟩ := leaf_core_early (B := B) (cs := cs) (mu := g.mu) (by rw [h2]; exact hk) X
      have : ∃ e, (g.next B cs X).1 = .error e := by
        unfold LeafGen.next
        simp only [h1, Bool.false_eq_true, if_false, he]
        split_ifs <;> exact ⟨_, rfl⟩
      obtain ⟨e, he⟩ := this
      exact ⟨e, by show ((g.next B cs X).1).map Tree.one = _; rw [he]; rfl⟩
  | sum s ts ih =>
    intro g hl hs hg
    match g, hg with
    | .sum started subs count done, hg =>
      simp only [ObjAt] at hg
      simp only [Obj.leaves] at hl
      simp only [Obj.sketches] at hs
      obtain ⟨rfl, rfl, hg⟩ := hg
      have hsubs : ObjAtL rank0 full count ts (if started = true then subs else ts.map ObjGen.new) := by
        rcases hg with ⟨rfl, rfl⟩ | ⟨rfl, -, h⟩
        · exact objAtL_new hs
        · exact h
      have hL : ∃ e gs', Obj.nextL B cs ts (if started = true then subs else ts.map ObjGen.new) = (.error e, gs') := by
        generalize (if started = true then subs else ts.map ObjGen.new) = gs at hsubs
        clear hg
        clear * - hsubs ih hs hl
        revert hs hl
        induction ts generalizing gs with
        | nil => intro hl; exact absurd rfl hl
        | cons t ts iht =>
          intro hl hs
          match gs, hsubs with
          | g :: gs, hsubs =>
            simp only [Obj.sketchesL, List.append_eq_nil_iff] at hs
            simp only [Obj.nextL]
            by_cases h0 : t.leaves = []
            · cases h1 : t.next B cs g with
              | mk r g' =>
                cases r with
                | error e => exact ⟨_, _, rfl⟩
                | ok c =>
                  obtain ⟨e, gs', h2⟩ := iht (fun t ht => ih t (List.mem_cons_of_mem _ ht)) gs hsubs.2
                    (by simpa [Obj.leavesL, h0] using hl) hs.2
                  simp only [h2]
                  exact ⟨_, _, rfl⟩
            · obtain ⟨e, he⟩ := ih t (by simp) h0 hs.1 hsubs.1
              rw [← Prod.mk.eta (p := t.next B cs g), he]
              exact ⟨_, _, rfl⟩
      obtain ⟨e, gs', hL⟩ := hL
      simp only [Obj.next, Bool.false_eq_true, if_false]
      cases (if started = true then Except.ok () else ts.forM (Obj.sketchMethod ⟨B, .tt cs⟩)) with
      | error e => exact ⟨_, rfl⟩
      | ok u =>
        simp only [hL]
        split_ifs <;> exact ⟨_, rfl⟩

theorem next_early_class {B : DRMBase} {cs full : List (ND K)} {rank0 k : ℕ} (hk : cs.length ≤ k) (h0 : 0 < k)
    (hd : k < B.shape.length - 1) {X : Obj K} :
    ∀ {g : ObjGen K}, X.Modes B.shape.length → ObjAt rank0 full k X g →
      (X.leaves = [] → ∃ c g', X.next B cs g = (.ok c, g')) ∧
      (X.leaves ≠ [] → ∃ g', X.next B cs g = (.error X.earlyError, g')) := by
  induction X using Obj.induct with
  | atom A =>
    intro g _ hg
    match A, g, hg with
    | .leaf X, .leaf g, hg =>
      obtain ⟨h1, h2, -⟩ := hg
      refine ⟨fun h => by simp [Obj.leaves] at h, fun _ => ?_⟩
      have h3 : cs[k]? = none := List.getElem?_eq_none hk
      have hc : LeafGen.core B cs g.mu X = .error (Obj.earlyError (.atom (.leaf X))) := by
        rw [h2]
        cases X <;> simp only [LeafGen.core, h3, hd, or_true, if_true, Obj.earlyError]
      have : (g.next B cs X).1 = .error (Obj.earlyError (.atom (.leaf X))) := by
        unfold LeafGen.next
        have : ¬ (g.mu = 0 ∧ B.shape ≠ X.shape) := by rw [h2]; omega
        simp only [h1, Bool.false_eq_true, if_false, if_neg this, hc]
      refine ⟨.leaf (g.next B cs X).2, ?_⟩
      show (((g.next B cs X).1).map Tree.one, _) = _
      rw [this]; rfl
  | sum s ts ih =>
    intro g hm hg
    match g, hg with
    | .sum started subs count done, hg =>
      simp only [ObjAt] at hg
      simp only [Obj.Modes] at hm
      obtain ⟨rfl, rfl, hg⟩ := hg
      rcases hg with ⟨rfl, rfl⟩ | ⟨rfl, -, hsubs⟩
      · omega
      have hL : (Obj.leavesL ts = [] → ∃ c gs', Obj.nextL B cs ts subs = (.ok c, gs')) ∧
          (Obj.leavesL ts ≠ [] → ∃ e gs', Obj.nextL B cs ts subs = (.error e, gs') ∧
            (if e = .stopIteration then PyErr.runtimeError else e) = Obj.earlyError (.sum s ts)) := by
        clear * - hsubs ih hm h0
        obtain ⟨-, hm⟩ := hm
        induction ts generalizing subs with
        | nil => exact ⟨fun _ => ⟨[], subs, by simp only [Obj.nextL]⟩, fun h => absurd rfl h⟩
        | cons t ts iht =>
          match subs, hsubs with
          | g :: gs, hsubs =>
            obtain ⟨i1, i2⟩ := ih t (by simp) hm.1 hsubs.1
            obtain ⟨j1, j2⟩ := iht gs (fun t ht => ih t (List.mem_cons_of_mem _ ht)) hsubs.2 hm.2
            by_cases ht : t.leaves = []
            · obtain ⟨c, g', h1⟩ := i1 ht
              constructor
              · intro h
                obtain ⟨c', gs', h2⟩ := j1 (by simpa [Obj.leavesL, ht] using h)
                exact ⟨c :: c', g' :: gs', by simp only [Obj.nextL, h1, h2]⟩
              · intro h
                obtain ⟨e, gs', h2, h3⟩ := j2 (by simpa [Obj.leavesL, ht] using h)
                refine ⟨e, g' :: gs', by simp only [Obj.nextL, h1, h2], ?_⟩
                rw [h3]
                simp only [Obj.earlyError, Obj.leavesL, ht, List.nil_append]
            · refine ⟨fun h => by simp [Obj.leavesL, ht] at h, fun _ => ?_⟩
              obtain ⟨g', h1⟩ := i2 ht
              refine ⟨t.earlyError, g' :: gs, by simp only [Obj.nextL, h1], ?_⟩
              cases t with
              | atom A =>
                match A with
                | .leaf X => cases X <;> simp [Obj.earlyError, Obj.leavesL, Obj.leaves]
              | sum s' ts' =>
                simp only [Obj.leaves] at ht
                have e1 : (Obj.sum s' ts').earlyError = .runtimeError ∨ (Obj.sum s' ts').earlyError = .indexError := by
                  simp only [Obj.earlyError]
                  split <;> simp
                have e2 : (Obj.sum s (Obj.sum s' ts' :: ts)).earlyError = (Obj.sum s' ts').earlyError := by
                  simp only [Obj.earlyError, Obj.leavesL, Obj.leaves, List.head?_append_of_ne_nil _ ht]
                rw [e2]
                rcases e1 with h | h <;> rw [h] <;> simp
      have hcount : ¬ (s.length - 1 ≤ count) := by rw [hm.1]; omega
      constructor
      · intro h
        obtain ⟨c, gs', h1⟩ := hL.1 (by simpa [Obj.leaves] using h)
        exact ⟨.many c, .sum true gs' (count + 1) false, by
          simp only [Obj.next, Bool.false_eq_true, if_false, if_true, if_neg hcount, h1]⟩
      · intro h
        obtain ⟨e, gs', h1, h2⟩ := hL.2 (by simpa [Obj.leaves] using h)
        exact ⟨.sum true gs' count true, by
          simp only [Obj.next, Bool.false_eq_true, if_false, if_true, if_neg hcount, h1, h2]⟩

/-- After the last bond every generator has ended. -/
theorem next_exhausted {B : DRMBase} {cs full : List (ND K)} {rank0 k : ℕ} (hk : cs.length ≤ k) (h0 : 0 < k)
    (hd : k = B.shape.length - 1) {X : Obj K} {g : ObjGen K} (hm : X.Modes B.shape.length) (hg : ObjAt rank0 full k X g) :
    (X.next B cs g).1 = .error .stopIteration := by
  cases X with
  | atom A =>
    match A, g, hg with
    | .leaf X, .leaf g, hg =>
      obtain ⟨h1, h2, -⟩ := hg
      have h3 : cs[k]? = none := List.getElem?_eq_none hk
      have hd1 : ¬ k < B.shape.length - 1 := by omega
      have hd2 : ¬ k = 0 := by omega
      have hc : LeafGen.core B cs g.mu X = .error .stopIteration := by
        rw [h2]
        cases X <;> simp only [LeafGen.core, h3, hd1, hd2, or_self, if_false]
      show ((g.next B cs X).1).map Tree.one = _
      have : (g.next B cs X).1 = .error .stopIteration := by
        unfold LeafGen.next
        have : ¬ (g.mu = 0 ∧ B.shape ≠ X.shape) := by rw [h2]; omega
        simp only [h1, Bool.false_eq_true, if_false, if_neg this, hc]
      rw [this]; rfl
  | sum s ts =>
    match g, hg with
    | .sum started subs count done, hg =>
      simp only [ObjAt] at hg
      simp only [Obj.Modes] at hm
      obtain ⟨rfl, rfl, hg⟩ := hg
      rcases hg with ⟨rfl, rfl⟩ | ⟨rfl, -, hsubs⟩
      · omega
      have hcount : s.length - 1 ≤ count := by rw [hm.1]; omega
      simp only [Obj.next, Bool.false_eq_true, if_false, if_true, if_pos hcount]

/-! ### Any schedule of calls -/

/-- The generator of an `OrthogTTDRM` that has answered `k` calls of `next`. -/
def OrthAt (rank0 : ℕ) (full : List (ND K)) (k : ℕ) (X : Obj K) (s : Orthog K) : Prop :=
  s.generator = none ∧ s.cores = [] ∧ k = 0 ∨ ∃ g, s.generator = some g ∧ ObjAt rank0 full k X g

theorem run_spec {env : Env K} {lr : List ℕ} {X : Obj K} {full : List (ND K)} {c : Tree (List (ND K))}
    (hc : X.contr env (orthDRM lr X.shape full) = .ok c) (hm : X.Modes X.shape.length) :
    ∀ (ops : List (OrthOp K)) (s : Orthog K) (k : ℕ), s.cores ++ OrthOp.added ops <+: full →
      OrthAt ((orthDRM lr X.shape ([] : List (ND K))).rank.getD 0 0) full k X s →
      (∀ pre suf, ops = pre ++ OrthOp.next :: suf → k + OrthOp.nexts pre < s.cores.length + (OrthOp.added pre).length) →
      k + OrthOp.nexts ops ≤ X.shape.length - 1 →
      Orthog.run lr X ops s = (List.range (OrthOp.nexts ops)).map (fun j => .ok (c.pick (k + j))) ∧
        ∃ s', (∀ more, Orthog.run lr X (ops ++ more) s = Orthog.run lr X ops s ++ Orthog.run lr X more s') ∧
          s'.cores = s.cores ++ OrthOp.added ops ∧
          OrthAt ((orthDRM lr X.shape ([] : List (ND K))).rank.getD 0 0) full (k + OrthOp.nexts ops) X s'
  | [], s, k, _, hs, _, _ => ⟨rfl, s, fun _ => rfl, by simp [OrthOp.added], hs⟩
  | .add C :: ops, s, k, hf, hs, ha, hn => by
    have hsk : X.sketches = [] := (contr_ok hc).2.1
    have e1 : OrthOp.added (.add C :: ops) = C :: OrthOp.added ops := rfl
    have e2 : OrthOp.nexts (.add C :: ops) = OrthOp.nexts ops := rfl
    rw [e1] at hf
    rw [e2] at hn
    have hat : OrthAt ((orthDRM lr X.shape ([] : List (ND K))).rank.getD 0 0) full k X (s.addCore X C) := by
      rcases hs with ⟨h1, h2, rfl⟩ | ⟨g, h1, h2⟩
      · exact .inr ⟨_, rfl, by rw [h1]; exact objAt_new hsk⟩
      · exact .inr ⟨_, rfl, by rw [h1]; exact h2⟩
    obtain ⟨a1, s', a2, a3, a4⟩ := run_spec hc hm ops (s.addCore X C) k (by simpa [Orthog.addCore] using hf) hat
      (fun pre suf h => by
        have h' := ha (.add C :: pre) suf (by rw [h]; rfl)
        have e3 : OrthOp.added (.add C :: pre) = C :: OrthOp.added pre := rfl
        have e4 : OrthOp.nexts (.add C :: pre) = OrthOp.nexts pre := rfl
        rw [e3, e4, List.length_cons] at h'
        simp only [Orthog.addCore, List.length_append, List.length_singleton]
        omega) hn
    exact ⟨a1, s', a2, by rw [a3, e1]; simp [Orthog.addCore], a4⟩
  | .next :: ops, s, k, hf, hs, ha, hn => by
    have e1 : OrthOp.added (OrthOp.next :: ops) = OrthOp.added ops := rfl
    have e2 : OrthOp.nexts (OrthOp.next :: ops) = OrthOp.nexts ops + 1 := by
      simp only [OrthOp.nexts, List.countP_cons_of_pos]
    rw [e2] at hn ⊢
    have h0 := ha [] ops rfl
    have h0 : k < s.cores.length := by simpa [OrthOp.added, OrthOp.nexts] using h0
    rcases hs with ⟨h1, h2, rfl⟩ | ⟨g, h1, h2⟩
    · rw [h2] at h0; simp at h0
    obtain ⟨b1, b2⟩ := next_spec (env := env) (lr := lr) (sh := X.shape) (cs := s.cores) (full := full) (k := k)
      (List.IsPrefix.trans (List.prefix_append _ _) hf) h0 (by omega) X c g hc hm h2
    have hnext : s.next lr X = (.ok (c.pick k), ⟨s.cores, some
        (X.next (orthDRM lr X.shape ([] : List (ND K))).toDRMBase s.cores g).2⟩) := by
      unfold Orthog.next
      simp only [h1, b1]
    obtain ⟨a1, s', a2, a3, a4⟩ := run_spec hc hm ops ⟨s.cores, some
        (X.next (orthDRM lr X.shape ([] : List (ND K))).toDRMBase s.cores g).2⟩ (k + 1) hf (.inr ⟨_, rfl, b2⟩)
      (fun pre suf h => by
        have h' := ha (.next :: pre) suf (by rw [h]; rfl)
        have e3 : OrthOp.added (OrthOp.next :: pre) = OrthOp.added pre := rfl
        have e4 : OrthOp.nexts (OrthOp.next :: pre) = OrthOp.nexts pre + 1 := by
          simp only [OrthOp.nexts, List.countP_cons_of_pos]
        rw [e3, e4] at h'
        show k + 1 + OrthOp.nexts pre < s.cores.length + _
        omega) (by omega)
    refine ⟨?_, s', fun more => ?_, a3, by rw [show k + (OrthOp.nexts ops + 1) = k + 1 + OrthOp.nexts ops by omega]; exact a4⟩
    · simp only [Orthog.run, hnext, a1]
      rw [List.range_succ_eq_map, List.map_cons, List.map_map]
      congr 1
      refine List.map_congr_left fun j _ => ?_
      simp only [Function.comp_apply]
      rw [show k + 1 + j = k + j.succ by omega]
    · simp only [Orthog.run, List.cons_append, hnext, a2]

/-- **C84.** However additions of cores and calls of `next` are interleaved, as long as every call of `next` comes after the
core it needs: the `k`-th call returns what contracting the tensor with all cores, also those added after the call, gives
for bond `k`. -/
theorem C84 (env : Env K) {rank : List ℕ} {X : Obj K} {s : Orthog K} {ops : List (OrthOp K)} {c : Tree (List (ND K))}
    (hm : X.Modes X.shape.length) (hs : Orthog.new rank X = .ok s)
    (hc : X.contr env (orthDRM rank X.shape (OrthOp.added ops)) = .ok c) (ha : OrthOp.Ahead ops)
    (hn : OrthOp.nexts ops ≤ X.shape.length - 1) :
    Orthog.run rank X ops s = (List.range (OrthOp.nexts ops)).map fun k => .ok (c.pick k) := by
  have : s = ⟨[], none⟩ := by
    unfold Orthog.new at hs
    cases h : X.sketchMethod (orthDRM rank X.shape []) with
    | error e => rw [h] at hs; cases hs
    | ok u => rw [h] at hs; injection hs with hs; exact hs.symm
  subst this
  obtain ⟨h, -⟩ := run_spec hc hm ops ⟨[], none⟩ 0 (by simp) (.inl ⟨rfl, rfl, rfl⟩)
    (fun pre suf h => by have := ha pre suf h; simpa using this) (by omega)
  rw [h]
  simp only [Nat.zero_add]

/-- **C84, too early.** A call of `next` before the core it needs was added raises; it never returns something computed
from fewer cores. -/
theorem C84_early (env : Env K) {rank : List ℕ} {X : Obj K} {s : Orthog K} {ops : List (OrthOp K)} {c : Tree (List (ND K))}
    (hm : X.Modes X.shape.length) (hs : Orthog.new rank X = .ok s)
    (hc : X.contr env (orthDRM rank X.shape (OrthOp.added ops)) = .ok c) (ha : OrthOp.Ahead ops)
    (hn : OrthOp.nexts ops ≤ X.shape.length - 1) (hX : X.leaves ≠ [])
    (he : (OrthOp.added ops).length ≤ OrthOp.nexts ops) :
    ∃ e, Orthog.run rank X (ops ++ [.next]) s = (List.range (OrthOp.nexts ops)).map (fun k => .ok (c.pick k)) ++ [.error e] := by
  have : s = ⟨[], none⟩ := by
    unfold Orthog.new at hs
    cases h : X.sketchMethod (orthDRM rank X.shape []) with
    | error e => rw [h] at hs; cases hs
    | ok u => rw [h] at hs; injection hs with hs; exact hs.symm
  subst this
  obtain ⟨h, s', h1, h2, h3⟩ := run_spec hc hm ops ⟨[], none⟩ 0 (by simp) (.inl ⟨rfl, rfl, rfl⟩)
    (fun pre suf h => by have := ha pre suf h; simpa using this) (by omega)
  rw [h1, h]
  simp only [Nat.zero_add, List.nil_append] at h2 h3 ⊢
  rcases h3 with ⟨h4, -, -⟩ | ⟨g, h4, h5⟩
  · exact ⟨.typeError, by simp only [Orthog.run, Orthog.next, h4]⟩
  · obtain ⟨e, he⟩ := next_early (B := (orthDRM rank X.shape ([] : List (ND K))).toDRMBase) (cs := s'.cores)
      (by rw [h2]; exact he) hX (contr_ok hc).2.1 h5
    exact ⟨e, by simp only [Orthog.run, Orthog.next, h4, he]⟩

/-- **C84, too early: which exception.** With no core added at all it is a `TypeError` (there is no generator); after all
bonds have been asked for it is a `StopIteration`; in between it is an `IndexError` for tensors in the TT, CP, dense or Tucker
format, a `StopIteration` for sparse tensors, and for lazy sums an `IndexError` or a `RuntimeError`, as their first basic tensor
is not or is sparse. -/
theorem C84_early_class (env : Env K) {rank : List ℕ} {X : Obj K} {s : Orthog K} {ops : List (OrthOp K)}
    {c : Tree (List (ND K))} (hm : X.Modes X.shape.length) (hs : Orthog.new rank X = .ok s)
    (hc : X.contr env (orthDRM rank X.shape (OrthOp.added ops)) = .ok c) (ha : OrthOp.Ahead ops)
    (hn : OrthOp.nexts ops ≤ X.shape.length - 1) (hX : X.leaves ≠ [])
    (he : (OrthOp.added ops).length ≤ OrthOp.nexts ops) :
    Orthog.run rank X (ops ++ [.next]) s = (List.range (OrthOp.nexts ops)).map (fun k => .ok (c.pick k)) ++
      [.error (if OrthOp.added ops = [] then .typeError
        else if OrthOp.nexts ops = X.shape.length - 1 then .stopIteration else X.earlyError)] := by
  by_cases h0 : OrthOp.added ops = []
  · have hops : ops = [] := by
      match ops, ha, h0 with
      | [], _, _ => rfl
      | .add C :: ops, _, h0 => cases h0
      | .next :: ops, ha, _ => exact absurd (ha [] ops rfl) (by simp [OrthOp.added, OrthOp.nexts])
    subst hops
    have : s = ⟨[], none⟩ := by
      unfold Orthog.new at hs
      cases h : X.sketchMethod (orthDRM rank X.shape []) with
      | error e => rw [h] at hs; cases hs
      | ok u => rw [h] at hs; injection hs with hs; exact hs.symm
    subst this
    rfl
  have : s = ⟨[], none⟩ := by
    unfold Orthog.new at hs
    cases h : X.sketchMethod (orthDRM rank X.shape []) with
    | error e => rw [h] at hs; cases hs
    | ok u => rw [h] at hs; injection hs with hs; exact hs.symm
  subst this
  obtain ⟨h, s', h1, h2, h3⟩ := run_spec hc hm ops ⟨[], none⟩ 0 (by simp) (.inl ⟨rfl, rfl, rfl⟩)
    (fun pre suf h => by have := ha pre suf h; simpa using this) (by omega)
  rw [h1, h]
  simp only [Nat.zero_add, List.nil_append] at h2 h3 ⊢
  congr 1
  rcases h3 with ⟨h4, h5, -⟩ | ⟨g, h4, h5⟩
  · rw [if_pos (by rw [← h2]; exact h5)]
    simp only [Orthog.run, Orthog.next, h4]
  · have hsh : (orthDRM rank X.shape ([] : List (ND K))).toDRMBase.shape = X.shape := rfl
    rw [if_neg h0]
    have hpos : 0 < OrthOp.nexts ops := lt_of_lt_of_le (List.length_pos_iff.2 h0) he
    split_ifs with hlast
    · have := next_exhausted (B := (orthDRM rank X.shape ([] : List (ND K))).toDRMBase) (cs := s'.cores)
        (by rw [h2]; exact he) hpos (by rw [hsh]; exact hlast) (by rw [hsh]; exact hm) h5
      simp only [Orthog.run, Orthog.next, h4, this]
    · obtain ⟨g', this⟩ := (next_early_class (B := (orthDRM rank X.shape ([] : List (ND K))).toDRMBase) (cs := s'.cores)
        (by rw [h2]; exact he) hpos (by rw [hsh]; omega) (by rw [hsh]; exact hm) h5).2 hX
      simp only [Orthog.run, Orthog.next, h4, this]

/-! ### The sketches -/

theorem next_ok_leaves {B : DRMBase} {cs : List (ND K)} {X : Obj K} : ∀ {T : Tree (ND K)},
    (X.next B cs (ObjGen.new X)).1 = .ok T → ∀ t ∈ X.leaves, B.shape = t.shape ∧
      ∃ P, LeafGen.first (B.rank.getD 0 0) (cs.getD 0 (ND.zeros [])) t = .ok P := by
  induction X using Obj.induct with
  | atom A =>
    intro T h t ht
    match A, h, ht with
    | .leaf X, h, ht =>
      obtain rfl : t = X := by simpa [Obj.leaves] using ht
      change ((LeafGen.new.next B cs t).1).map Tree.one = _ at h
      cases h1 : (LeafGen.new.next B cs t).1 with
      | error e => rw [h1] at h; cases h
      | ok A => exact leaf_next_ok h1
  | sum s ts ih =>
    intro T h t ht
    simp only [Obj.next, ObjGen.new, Bool.false_eq_true, if_false] at h
    cases h1 : ts.forM (Obj.sketchMethod ⟨B, .tt cs⟩) with
    | error e => rw [h1] at h; cases h
    | ok u =>
      rw [h1] at h
      simp only at h
      split_ifs at h with h2
      have key : ∀ (ts : List (Obj K)) (css : List (Tree (ND K))) (gs' : List (ObjGen K)),
          (∀ t ∈ ts, ∀ {T : Tree (ND K)}, (t.next B cs (ObjGen.new t)).1 = .ok T → ∀ u ∈ t.leaves, B.shape = u.shape ∧
            ∃ P, LeafGen.first (B.rank.getD 0 0) (cs.getD 0 (ND.zeros [])) u = .ok P) →
          Obj.nextL B cs ts (ts.map ObjGen.new) = (.ok css, gs') → ∀ u ∈ Obj.leavesL ts, B.shape = u.shape ∧
            ∃ P, LeafGen.first (B.rank.getD 0 0) (cs.getD 0 (ND.zeros [])) u = .ok P := by
        clear * -
        intro ts
        induction ts with
        | nil => intro _ _ _ _ u hu; simp [Obj.leavesL] at hu
        | cons t ts iht =>
          intro css gs' ih h u hu
          simp only [List.map_cons, Obj.nextL] at h
          cases h1 : t.next B cs (ObjGen.new t) with
          | mk r g =>
            cases r with
            | error e => rw [h1] at h; simp at h
            | ok c =>
              rw [h1] at h
              simp only at h
              cases h2 : Obj.nextL B cs ts (ts.map ObjGen.new) with
              | mk r gs =>
                cases r with
                | error e => rw [h2] at h; simp at h
                | ok cs' =>
                  simp only [Obj.leavesL, List.mem_append] at hu
                  rcases hu with hu | hu
                  · exact ih t (by simp) (by rw [h1]) u hu
                  · exact iht cs' gs (fun t ht => ih t (List.mem_cons_of_mem _ ht)) h2 u hu
      cases h3 : Obj.nextL B cs ts (ts.map ObjGen.new) with
      | mk r gs =>
        cases r with
        | error e => rw [h3] at h; cases h
        | ok css => exact key ts css gs ih h3 t ht

theorem mapM_exists {α β : Type*} {f : α → Except PyErr β} : ∀ {l : List α}, (∀ x ∈ l, ∃ y, f x = .ok y) → ∃ L, l.mapM f = .ok L
  | [], _ => ⟨[], rfl⟩
  | x :: l, h => by
    obtain ⟨y, hy⟩ := h x (by simp)
    obtain ⟨L, hL⟩ := mapM_exists fun z hz => h z (List.mem_cons_of_mem _ hz)
    exact ⟨y :: L, by rw [mapM_cons_andThen, hy, hL]; rfl⟩

theorem mapM_mem {α β : Type*} {f : α → Except PyErr β} {l : List α} {L : List β} (h : l.mapM f = .ok L) {x : α} (hx : x ∈ l) :
    ∃ y, f x = .ok y := by
  obtain ⟨k, hk, rfl⟩ := List.getElem_of_mem hx
  obtain ⟨h1, h2⟩ := mapM_ok_iff h
  exact ⟨_, h2 k hk (by rw [h1]; exact hk)⟩

/-- If the first call of `next` returns, the contractions exist. -/
theorem next_ok_contr (env : Env K) {lr : List ℕ} {cs : List (ND K)} {X : Obj K} {T : Tree (ND K)} (hne : cs ≠ [])
    (hs : X.sketches = []) (h : (X.next (orthDRM lr X.shape ([] : List (ND K))).toDRMBase cs (ObjGen.new X)).1 = .ok T) :
    ∃ c, X.contr env (orthDRM lr X.shape cs) = .ok c := by
  have h1 := next_ok_leaves h
  obtain ⟨L, hL⟩ := mapM_exists (f := (orthDRM lr X.shape cs).sketch env) (l := X.leaves) fun t ht =>
    (orth_sketch_spec env hne).1 (h1 t ht).1 (h1 t ht).2
  obtain ⟨c, hc, -⟩ := contr_of hs hL
  exact ⟨c, hc⟩

/-- Contractions with more cores exist if they exist with some. -/
theorem contr_extend {env : Env K} {lr : List ℕ} {cs pad : List (ND K)} {X : Obj K} {c : Tree (List (ND K))} (hne : cs ≠ [])
    (h : X.contr env (orthDRM lr X.shape cs) = .ok c) : ∃ c', X.contr env (orthDRM lr X.shape (cs ++ pad)) = .ok c' := by
  obtain ⟨-, h2, h3, -⟩ := contr_ok h
  obtain ⟨L, hL⟩ := mapM_exists (f := (orthDRM lr X.shape (cs ++ pad)).sketch env) (l := X.leaves) fun t ht => by
    obtain ⟨y, hy⟩ := mapM_mem h3 ht
    rw [orth_sketch_take env lr X.shape cs pad hne] at hy
    cases h4 : (orthDRM lr X.shape (cs ++ pad)).sketch env t with
    | error e => rw [h4] at hy; cases hy
    | ok l => exact ⟨l, rfl⟩
  obtain ⟨c', hc, -⟩ := contr_of h2 hL
  exact ⟨c', hc⟩

/-- The states of the two loops after `n` steps. -/
def LoopAt (env : Env K) (lr : List ℕ) (X : Obj K) (n : ℕ) (st : Orthog K × List (ND K)) : Prop :=
  st.2.length = n ∧ st.1.cores = st.2.take (n - 1) ∧
    (n ≤ 1 ∧ st.1.generator = none ∨ 1 < n ∧ ∃ g c, st.1.generator = some g ∧
      ObjAt ((orthDRM lr X.shape ([] : List (ND K))).rank.getD 0 0) (st.2.take (n - 1)) (n - 1) X g ∧
      X.contr env (orthDRM lr X.shape (st.2.take (n - 1))) = .ok c)

theorem psiStep_same {env : Env K} {X : Obj K} {lr rr : List ℕ} {om : Option (List (ND K))} {rc : Tree (List (ND K))}
    (hs : X.sketches = []) (hm : X.Modes X.shape.length) {n : ℕ} (hn : n < X.shape.length) {st : Orthog K × List (ND K)}
    (h : LoopAt env lr X n st) :
    (∀ st', Orthog.psiStep env X lr rr om rc st n = .ok st' → LoopAt env lr X (n + 1) st' ∧
      X.psiOrthStep env lr rr om rc st.2 n = .ok st'.2) ∧
    ∀ Q, X.psiOrthStep env lr rr om rc st.2 n = .ok Q → ∃ s', Orthog.psiStep env X lr rr om rc st n = .ok (s', Q) := by
  obtain ⟨s, cores⟩ := st
  obtain ⟨h1, h2, h3⟩ := h
  simp only at h1 h2 h3
  -- the left contractions of both
  have key : ∀ (r : Except PyErr (Tree (ND K)) × Orthog K) (x : Except PyErr (Tree (List (ND K)))),
      r = (if 0 < n then (s.addCore X (cores.getLastD (ND.zeros []))).next lr X else (.ok (.many []), s)) →
      x = (if 0 < n then X.contr env (orthDRM lr X.shape cores) else .ok (.many [])) →
      (∃ e e', r.1 = .error e ∧ x = .error e') ∨ ∃ lc, x = .ok lc ∧ r.1 = .ok (lc.pick (n - 1)) ∧
        r.2.cores = cores ∧ (n = 0 ∧ r.2.generator = none ∨ 0 < n ∧ ∃ g, r.2.generator = some g ∧
          ObjAt ((orthDRM lr X.shape ([] : List (ND K))).rank.getD 0 0) cores n X g) := by
    intro r x hr hx
    by_cases h0 : n = 0
    · subst h0
      rw [if_neg (by omega)] at hr hx
      subst hr hx
      have hcn : cores = [] := List.length_eq_zero_iff.1 h1
      exact .inr ⟨_, rfl, rfl, by simpa [hcn] using h2, .inl ⟨rfl, by
        rcases h3 with h3 | h3
        · exact h3.2
        · exact absurd h3.1 (by omega)⟩⟩
    rw [if_pos (by omega)] at hr hx
    have hne : cores ≠ [] := by rintro rfl; exact h0 h1.symm
    have hcs : s.cores ++ [cores.getLastD (ND.zeros [])] = cores := by
      rw [h2, ← h1, ← List.dropLast_eq_take]
      conv_rhs => rw [← List.dropLast_append_getLast hne]
      rw [List.getLastD_eq_getLast?, List.getLast?_eq_getLast_of_ne_nil hne, Option.getD_some]
    -- the generator
    have hg : ∃ g, s.generator.getD (ObjGen.new X) = g ∧
        ObjAt ((orthDRM lr X.shape ([] : List (ND K))).rank.getD 0 0) cores (n - 1) X g ∧
        ((∃ c, X.contr env (orthDRM lr X.shape cores) = .ok c) ∨ g = ObjGen.new X) := by
      rcases h3 with ⟨h3, h4⟩ | ⟨h3, g, c, h4, h5, h6⟩
      · obtain rfl : n = 1 := by omega
        exact ⟨_, rfl, by rw [h4]; exact objAt_new hs, .inr (by rw [h4]; rfl)⟩
      · have hne' : cores.take (n - 1) ≠ [] := by
          intro h
          have := congrArg List.length h
          rw [List.length_take, List.length_nil] at this
          omega
        refine ⟨_, rfl, ?_, .inl ?_⟩
        · rw [h4]
          have := objAt_append (pad := cores.drop (n - 1)) (by rw [List.length_take]; omega) h5
          rwa [List.take_append_drop] at this
        · obtain ⟨c', hc'⟩ := contr_extend (pad := cores.drop (n - 1)) hne' h6
          rw [List.take_append_drop] at hc'
          exact ⟨c', hc'⟩
    obtain ⟨g, hg1, hg2, hg3⟩ := hg
    have hr' : r = ((X.next (orthDRM lr X.shape ([] : List (ND K))).toDRMBase cores g).1,
        ⟨cores, some (X.next (orthDRM lr X.shape ([] : List (ND K))).toDRMBase cores g).2⟩) := by
      rw [hr]
      unfold Orthog.addCore Orthog.next
      simp only [hg1, hcs]
    cases hc : X.contr env (orthDRM lr X.shape cores) with
    | ok c =>
      obtain ⟨b1, b2⟩ := next_spec (env := env) (lr := lr) (sh := X.shape) (cs := cores) (full := cores) (k := n - 1)
        (List.prefix_refl _) (by omega) (by omega) X c g hc hm hg2
      refine .inr ⟨c, by rw [hx, hc], by rw [hr', b1], by rw [hr'], .inr ⟨by omega, _, by rw [hr'], ?_⟩⟩
      rw [show n - 1 + 1 = n by omega] at b2
      exact b2
    | error e =>
      refine .inl ?_
      cases hT : (X.next (orthDRM lr X.shape ([] : List (ND K))).toDRMBase cores g).1 with
      | error e' => exact ⟨e', e, by rw [hr', hT], by rw [hx, hc]⟩
      | ok T =>
        rcases hg3 with ⟨c, hc'⟩ | rfl
        · rw [hc] at hc'; cases hc'
        · obtain ⟨c, hc'⟩ := next_ok_contr env hne hs hT
          rw [hc] at hc'; cases hc'
  -- the rest of the step
  have hgen : Orthog.psiStep env X lr rr om rc (s, cores) n = Except.andThen
      (if 0 < n then (s.addCore X (cores.getLastD (ND.zeros []))).next lr X else (.ok (.many []), s)).1 fun left =>
      (X.psiAt lr rr rc n left).andThen fun Psi =>
      if n < X.shape.length - 1 then
        (orthStep env Psi (om.map fun l => l.getD n (ND.zeros []))).andThen fun Q =>
          .ok ((if 0 < n then (s.addCore X (cores.getLastD (ND.zeros []))).next lr X else (.ok (.many []), s)).2, cores ++ [Q])
      else .ok ((if 0 < n then (s.addCore X (cores.getLastD (ND.zeros []))).next lr X else (.ok (.many []), s)).2,
        cores ++ [Psi]) := rfl
  have hst : X.psiOrthStep env lr rr om rc cores n = Except.andThen
      (if 0 < n then X.contr env (orthDRM lr X.shape cores) else .ok (.many [])) fun lc =>
      (X.psiAt lr rr rc n (lc.pick (n - 1))).andThen fun Psi =>
      if n < X.shape.length - 1 then
        (orthStep env Psi (om.map fun l => l.getD n (ND.zeros []))).andThen fun Q => .ok (cores ++ [Q])
      else .ok (cores ++ [Psi]) := by
    unfold Obj.psiOrthStep
    generalize (if 0 < n then X.contr env (orthDRM lr X.shape cores) else .ok (.many [])) = x
    cases x with
    | error e => rfl
    | ok lc =>
      show (match X.psiAt lr rr rc n (lc.pick (n - 1)) with | .error e => _ | .ok Psi => _)
        = (X.psiAt lr rr rc n (lc.pick (n - 1))).andThen _
      cases X.psiAt lr rr rc n (lc.pick (n - 1)) with
      | error e => rfl
      | ok Psi =>
        show (if n < X.shape.length - 1 then _ else _) = if n < X.shape.length - 1 then _ else _
        split_ifs
        · cases orthStep env Psi (om.map fun l => l.getD n (ND.zeros [])) <;> rfl
        · rfl
  rw [hgen, hst]
  rcases key _ _ rfl rfl with ⟨e, e', k1, k2⟩ | ⟨lc, k1, k2, k3, k4⟩
  · rw [k1, k2]
    constructor
    · intro _ h; cases h
    · intro _ h; cases h
  rw [k1, k2]
  generalize (if 0 < n then (s.addCore X (cores.getLastD (ND.zeros []))).next lr X else (.ok (.many []), s)).2 = s' at k3 k4 ⊢
  have hloop : ∀ Q, LoopAt env lr X (n + 1) (s', cores ++ [Q]) := by
    intro Q
    have ht : (cores ++ [Q]).take (n + 1 - 1) = cores := by
      rw [Nat.add_sub_cancel, ← h1, List.take_left']
      rfl
    refine ⟨by simp [h1], ?_, ?_⟩
    · show s'.cores = (cores ++ [Q]).take (n + 1 - 1)
      rw [ht, k3]
    · show _ ∨ 1 < n + 1 ∧ ∃ g c, s'.generator = some g ∧ ObjAt _ ((cores ++ [Q]).take (n + 1 - 1)) _ X g ∧
        X.contr env (orthDRM lr X.shape ((cores ++ [Q]).take (n + 1 - 1))) = .ok c
      rw [ht]
      rcases k4 with ⟨rfl, k4⟩ | ⟨k4, g, k5, k6⟩
      · exact .inl ⟨by omega, k4⟩
      · rw [if_pos k4] at k1
        exact .inr ⟨by omega, g, lc, k5, k6, k1⟩
  have hF : ∃ F : Except PyErr (ND K),
      (Except.andThen (Except.ok (lc.pick (n - 1)) : Except PyErr _) fun left => (X.psiAt lr rr rc n left).andThen fun Psi =>
        if n < X.shape.length - 1 then
          (orthStep env Psi (om.map fun l => l.getD n (ND.zeros []))).andThen fun Q => .ok (s', cores ++ [Q])
        else .ok (s', cores ++ [Psi])) = F.andThen (fun Q => .ok (s', cores ++ [Q])) ∧
      (Except.andThen (Except.ok lc : Except PyErr _) fun lc => (X.psiAt lr rr rc n (lc.pick (n - 1))).andThen fun Psi =>
        if n < X.shape.length - 1 then
          (orthStep env Psi (om.map fun l => l.getD n (ND.zeros []))).andThen fun Q => .ok (cores ++ [Q])
        else .ok (cores ++ [Psi])) = F.andThen (fun Q => .ok (cores ++ [Q])) := by
    simp only [Except.andThen]
    cases X.psiAt lr rr rc n (lc.pick (n - 1)) with
    | error e => exact ⟨.error e, rfl, rfl⟩
    | ok Psi =>
      by_cases hlast : n < X.shape.length - 1
      · exact ⟨orthStep env Psi (om.map fun l => l.getD n (ND.zeros [])), by simp only [if_pos hlast], by simp only [if_pos hlast]⟩
      · exact ⟨.ok Psi, by simp only [if_neg hlast], by simp only [if_neg hlast]⟩
  obtain ⟨F, f1, f2⟩ := hF
  rw [f1, f2]
  cases F with
  | error e =>
    constructor
    · intro _ h; cases h
    · intro _ h; cases h
  | ok Q =>
    refine ⟨fun st' h => ?_, fun Q' h => ?_⟩
    · replace h : Except.ok (s', cores ++ [Q]) = Except.ok st' := h
      injection h with h
      subst h
      exact ⟨hloop Q, rfl⟩
    · replace h : Except.ok (cores ++ [Q]) = Except.ok Q' := h
      injection h with h
      subst h
      exact ⟨s', rfl⟩

theorem psis_same {env : Env K} {X : Obj K} {lr rr : List ℕ} {om : Option (List (ND K))} {rc : Tree (List (ND K))}
    (hs : X.sketches = []) (hm : X.Modes X.shape.length) :
    SameOk (Orthog.psis env X lr rr om rc) (X.psisOrth env lr rr om rc) := by
  have hnew : Orthog.new lr X = .ok ⟨[], none⟩ := by
    unfold Orthog.new
    rw [sketchMethod_ok (D := orthDRM lr X.shape []) hs fun t _ => supports_orth _ _ t]
    rfl
  have key : ∀ n ≤ X.shape.length,
      (∀ st, (List.range n).foldlM (Orthog.psiStep env X lr rr om rc) (⟨[], none⟩, []) = .ok st →
        LoopAt env lr X n st ∧ (List.range n).foldlM (X.psiOrthStep env lr rr om rc) [] = .ok st.2) ∧
      ∀ Q, (List.range n).foldlM (X.psiOrthStep env lr rr om rc) [] = .ok Q →
        ∃ s, (List.range n).foldlM (Orthog.psiStep env X lr rr om rc) (⟨[], none⟩, []) = .ok (s, Q) := by
    intro n
    induction n with
    | zero =>
      intro _
      refine ⟨fun st h => ?_, fun Q h => ?_⟩
      · replace h : Except.ok (⟨[], none⟩, []) = Except.ok st := h
        injection h with h
        subst h
        exact ⟨⟨rfl, rfl, .inl ⟨by omega, rfl⟩⟩, rfl⟩
      · replace h : Except.ok [] = Except.ok Q := h
        injection h with h
        subst h
        exact ⟨_, rfl⟩
    | succ n ih =>
      intro hn
      obtain ⟨i1, i2⟩ := ih (by omega)
      simp only [List.range_succ, List.foldlM_append, List.foldlM_cons, List.foldlM_nil, bind_pure]
      refine ⟨fun st h => ?_, fun Q h => ?_⟩
      · cases h1 : (List.range n).foldlM (Orthog.psiStep env X lr rr om rc) (⟨[], none⟩, []) with
        | error e => rw [h1] at h; cases h
        | ok st0 =>
          rw [h1] at h
          obtain ⟨j1, j2⟩ := i1 st0 h1
          obtain ⟨k1, k2⟩ := (psiStep_same hs hm (by omega) j1).1 st h
          refine ⟨k1, ?_⟩
          rw [j2]
          exact k2
      · cases h1 : (List.range n).foldlM (X.psiOrthStep env lr rr om rc) [] with
        | error e => rw [h1] at h; cases h
        | ok Q0 =>
          rw [h1] at h
          obtain ⟨s0, j1⟩ := i2 Q0 h1
          obtain ⟨j2, -⟩ := i1 _ j1
          obtain ⟨s1, k1⟩ := (psiStep_same hs hm (by omega) j2).2 Q h
          refine ⟨s1, ?_⟩
          rw [j1]
          exact k1
  obtain ⟨k1, k2⟩ := key _ le_rfl
  intro Q
  unfold Orthog.psis Obj.psisOrth
  rw [hnew]
  show ((List.range X.shape.length).foldlM (Orthog.psiStep env X lr rr om rc) (⟨[], none⟩, [])).map Prod.snd = .ok Q ↔ _
  constructor
  · intro h
    cases h1 : (List.range X.shape.length).foldlM (Orthog.psiStep env X lr rr om rc) (⟨[], none⟩, []) with
    | error e => rw [h1] at h; cases h
    | ok st =>
      rw [h1] at h
      injection h with h
      rw [← h]
      exact (k1 st h1).2
  · intro h
    obtain ⟨s, h1⟩ := k2 Q h
    rw [h1]
    rfl

/-- **C84, `general_sketch`.** With its generators, fed one core at a time, it returns exactly what it returns when all
contractions are computed from scratch at every step. -/
theorem C84_sketch (env : Env K) {X : Obj K} (hm : X.Modes X.shape.length) (left : Option (DRM K)) (right : DRM K) (m : Method) :
    SameOk (X.generalSketchGen env left right m) (X.generalSketch env left right m) := by
  cases m with
  | streaming => exact SameOk.rfl' _
  | orthogonal =>
    cases left with
    | none => exact SameOk.rfl' _
    | some left =>
      exact (SameOk.rfl' _).andThen fun lc hl => (SameOk.rfl' _).andThen fun rc _ => (SameOk.rfl' _).andThen fun om _ =>
        (psis_same (contr_ok hl).2.1 hm).andThen fun psi _ => SameOk.rfl' _
  | hmt =>
    exact (SameOk.rfl' _).andThen fun rc hr => (psis_same (contr_ok hr).2.1 hm).andThen fun psi _ => SameOk.rfl' _

/-- Objects whose declared shapes agree have sums with one number of modes. -/
theorem modes_of_good {env : Env K} {sh : List ℕ} {X : Obj K} : X.Good env sh → X.Modes sh.length := by
  induction X using Obj.induct with
  | atom A => intro _; trivial
  | sum s ts ih =>
    intro h
    simp only [Obj.Good] at h
    obtain ⟨rfl, h⟩ := h
    refine ⟨rfl, ?_⟩
    rw [goodL_iff] at h
    induction ts with
    | nil => trivial
    | cons t ts iht =>
      exact ⟨ih t (by simp) (h t (by simp)), iht (fun t ht => ih t (List.mem_cons_of_mem _ ht))
        fun t ht => h t (List.mem_cons_of_mem _ ht)⟩

/-- **C84, `orthogonal_sketch`**: with the generators it returns what it returns for the flat sum of the basic tensors,
computed without them. -/
theorem C84_orthogonal (env : Env K) {sh : List ℕ} {X : Obj K} (hX : X.Good env sh) (hs : X.sketches = [])
    (lrank rrank : RankArg) (kw : SketchKw K) (Y : TT K × DRM K × DRM K) :
    X.orthogonalSketchGen env lrank rrank kw = .ok Y ↔ orthogonalSketch env X.flatten lrank rrank kw = .ok Y := by
  rw [← C83_orthogonal env hs]
  have hm : X.Modes X.shape.length := by rw [good_shape hX]; exact modes_of_good hX
  refine (show SameOk _ _ from ?_) Y
  unfold Obj.orthogonalSketch Obj.orthogonalSketchGen
  refine (SameOk.rfl' _).andThen fun b _ => ?_
  split_ifs
  · exact SameOk.rfl' _
  · exact (SameOk.rfl' _).andThen fun l _ => (SameOk.rfl' _).andThen fun r _ => (C84_sketch env hm _ _ _).andThen fun s _ =>
      SameOk.rfl' _

/-- **C84, `hmt_sketch`.** -/
theorem C84_hmt (env : Env K) {sh : List ℕ} {X : Obj K} (hX : X.Good env sh) (hs : X.sketches = [])
    (rank : RankArg) (seed : Option ℕ) (drmType : Option DRMKind) (drm : Option (DRM K)) (returnDrm : Bool) (Y : TT K) :
    X.hmtSketchGen env rank seed drmType drm returnDrm = .ok Y ↔ hmtSketch env X.flatten rank seed drmType drm returnDrm = .ok Y := by
  rw [← C83_hmt env hs]
  have hm : X.Modes X.shape.length := by rw [good_shape hX]; exact modes_of_good hX
  refine (show SameOk _ _ from ?_) Y
  unfold Obj.hmtSketch Obj.hmtSketchGen
  exact (SameOk.rfl' _).andThen fun l _ => (C84_sketch env hm _ _ _).andThen fun s _ => SameOk.rfl' _

/-- a nested sum -/
noncomputable def x84 : Obj ℝ := .sum [2, 3, 2] [.atom (.leaf (.sparse x8)), .sum [2, 3, 2] [.atom (.leaf (.sparse x8))]]

theorem x84_good : x84.Good env8 [2, 3, 2] ∧ x84.sketches = [] := by
  have g : (Obj.atom (.leaf (.sparse x8))).Good env8 [2, 3, 2] := ⟨x8_valid, x8_distinct, rfl⟩
  exact ⟨⟨rfl, g, ⟨rfl, g, trivial⟩, trivial⟩, by simp [x84, Obj.sketches, Obj.sketchesL]⟩

/-- `C84_hmt` applies and the sketch with generators succeeds. -/
example : ∃ Y, x84.hmtSketchGen env8 (.int 2) (some 7) = .ok Y := by
  obtain ⟨hg, hs⟩ := x84_good
  obtain ⟨h1, h2, h3, -, h5, -⟩ := C83_flatten hg hs
  have hsum : ∀ t ∈ x84.flatten.summands, t = .sparse x8 := by
    rw [h5]; simp [x84, Obj.leaves, Obj.leavesL]
  obtain ⟨Y, hY⟩ := C42_success env8 (lstsqChoice_contract rfl) (qrChoice_contract rfl) x84.flatten (.int 2) (some 7) none h1
    (by rw [h3]; decide) h2 (fun t ht => by rw [hsum t ht]; trivial) (by rw [h3]; rfl) (by rw [h3]; decide)
    (by rw [h3]; decide) (by decide) fun t _ D hD => supports_tt D hD t
  exact ⟨Y, (C84_hmt env8 hg hs _ _ _ _ _ Y).2 hY⟩

/-- a core -/
def c84 (r n s : ℕ) : ND ℝ := ND.ofFn [r, n, s] fun _ => 1

/-- `C84` and `C84_early` apply: the second core is added after the first call of `next`, and the third call comes too
early. -/
example : ∃ s, ∃ c : Tree (List (ND ℝ)), ∃ e, Orthog.new [1, 1] x84 = .ok s ∧
    Orthog.run [1, 1] x84 ([.add (c84 1 2 1), .next, .add (c84 1 3 1), .next]) s = [.ok (c.pick 0), .ok (c.pick 1)] ∧
    Orthog.run [1, 1] x84 ([.add (c84 1 2 1), .next, .add (c84 1 3 1), .next] ++ [.next]) s
      = [.ok (c.pick 0), .ok (c.pick 1)] ++ [.error e] := by
  obtain ⟨hg, hs⟩ := x84_good
  have hm : x84.Modes x84.shape.length := by rw [good_shape hg]; exact modes_of_good hg
  have hnew : Orthog.new [1, 1] x84 = .ok ⟨[], none⟩ := rfl
  have hne : OrthOp.added [.add (c84 1 2 1), .next, .add (c84 1 3 1), .next] ≠ [] := by simp [OrthOp.added]
  obtain ⟨L, hL⟩ := mapM_exists (f := (orthDRM [1, 1] x84.shape
      (OrthOp.added [.add (c84 1 2 1), .next, .add (c84 1 3 1), .next])).sketch env8) (l := x84.leaves) fun t ht => by
    have : t = .sparse x8 := by
      have : t ∈ [Leaf.sparse x8, .sparse x8] := by simpa [x84, Obj.leaves, Obj.leavesL] using ht
      simpa using this
    subst this
    exact (orth_sketch_spec env8 hne).1 rfl ⟨_, rfl⟩
  obtain ⟨c, hc, -⟩ := contr_of hs hL
  have ha : OrthOp.Ahead [.add (c84 1 2 1), .next, .add (c84 1 3 1), .next] := by
    intro pre suf h
    match pre, h with
    | [], h => simp at h
    | [a], h =>
      simp only [List.cons_append, List.nil_append, List.cons.injEq] at h
      rw [← h.1]
      simp [OrthOp.nexts, OrthOp.added]
    | [a, b], h => simp at h
    | [a, b, d], h =>
      simp only [List.cons_append, List.nil_append, List.cons.injEq] at h
      rw [← h.1, ← h.2.1, ← h.2.2.1]
      simp [OrthOp.nexts, OrthOp.added]
    | a :: b :: d :: e :: l, h => simp at h
  have hl : x84.leaves ≠ [] := by simp [x84, Obj.leaves, Obj.leavesL]
  have hn2 : OrthOp.nexts [.add (c84 1 2 1), .next, .add (c84 1 3 1), .next] = 2 := rfl
  obtain ⟨e, he⟩ := C84_early env8 hm hnew hc ha (by rw [hn2]; exact Nat.le_refl 2) hl (by rw [hn2]; exact Nat.le_refl 2)
  refine ⟨_, c, e, hnew, ?_, ?_⟩
  · rw [C84 env8 hm hnew hc ha (by rw [hn2]; exact Nat.le_refl 2), hn2]
    rfl
  · rw [he, hn2]
    rfl

/-- `C84_early_class` applies: the second call of `next` on a lazy sum of sparse tensors, after only one core. -/
example : ∃ s, ∃ c : Tree (List (ND ℝ)), Orthog.new [1, 1] x84 = .ok s ∧
    Orthog.run [1, 1] x84 ([.add (c84 1 2 1), .next] ++ [.next]) s = [.ok (c.pick 0), .error .runtimeError] := by
  obtain ⟨hg, hs⟩ := x84_good
  have hm : x84.Modes x84.shape.length := by rw [good_shape hg]; exact modes_of_good hg
  have hnew : Orthog.new [1, 1] x84 = .ok ⟨[], none⟩ := rfl
  have hne : OrthOp.added [.add (c84 1 2 1), .next] ≠ [] := by simp [OrthOp.added]
  obtain ⟨L, hL⟩ := mapM_exists (f := (orthDRM [1, 1] x84.shape
      (OrthOp.added [.add (c84 1 2 1), .next])).sketch env8) (l := x84.leaves) fun t ht => by
    have : t = .sparse x8 := by
      have : t ∈ [Leaf.sparse x8, .sparse x8] := by simpa [x84, Obj.leaves, Obj.leavesL] using ht
      simpa using this
    subst this
    exact (orth_sketch_spec env8 hne).1 rfl ⟨_, rfl⟩
  obtain ⟨c, hc, -⟩ := contr_of hs hL
  have ha : OrthOp.Ahead [.add (c84 1 2 1), .next] := by
    intro pre suf h
    match pre, h with
    | [], h => simp at h
    | [a], h =>
      simp only [List.cons_append, List.nil_append, List.cons.injEq] at h
      rw [← h.1]
      simp [OrthOp.nexts, OrthOp.added]
    | a :: b :: l, h => simp at h
  have hl : x84.leaves ≠ [] := by simp [x84, Obj.leaves, Obj.leavesL]
  have hn1 : OrthOp.nexts [.add (c84 1 2 1), .next] = 1 := rfl
  have h3 : x84.shape.length - 1 = 2 := rfl
  refine ⟨_, c, hnew, ?_⟩
  rw [C84_early_class env8 hm hnew hc ha (by rw [hn1, h3]; decide) hl (by rw [hn1]; exact Nat.le_refl 1), hn1, if_neg hne, h3,
    if_neg (by decide)]
  rfl

end TTS.Props
