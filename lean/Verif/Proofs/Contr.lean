import Verif.Spec.Sketch
import Verif.Proofs.TensorOps
import Verif.Proofs.Hash

/-! The contractions computed by the DRM classes. -/

namespace TTS

open Finset

variable {K : Type*}

/-! ### list helpers -/

theorem getD_eq {α : Type*} {l : List α} {k : ℕ} (h : k < l.length) (z : α) : l.getD k z = l[k] := by
  simp [List.getD_eq_getElem?_getD, h]

theorem take_succ_getD {α : Type*} {l : List α} {k : ℕ} (h : k < l.length) (z : α) :
    l.take (k + 1) = l.take k ++ [l.getD k z] := by
  rw [getD_eq h, List.take_succ_eq_append_getElem h]

theorem drop_eq_getD_cons {α : Type*} {l : List α} {k : ℕ} (h : k < l.length) (z : α) :
    l.drop k = l.getD k z :: l.drop (k + 1) := by
  rw [getD_eq h, List.drop_eq_getElem_cons h]

theorem getD_map_range {α : Type*} (f : ℕ → α) (n k : ℕ) (z : α) (h : k < n) :
    ((List.range n).map f).getD k z = f k := by
  rw [getD_eq (by simpa using h)]; simp

theorem take_two_getD {α : Type*} {l : List α} (h : 0 < l.length) (z : α) :
    l.take 1 = [l.getD 0 z] := by
  have := take_succ_getD h z
  simpa using this

theorem mapM_ok {α β ε : Type*} {f : α → Except ε β} {g : α → β} :
    ∀ {l : List α}, (∀ x ∈ l, f x = .ok (g x)) → l.mapM f = .ok (l.map g)
  | [], _ => rfl
  | x :: l, h => by
    rw [List.mapM_cons, h x (by simp), mapM_ok fun y hy => h y (by simp [hy])]
    rfl

theorem mapM_ok_iff {α β ε : Type*} {f : α → Except ε β} :
    ∀ {l : List α} {r : List β}, l.mapM f = .ok r → r.length = l.length ∧
      ∀ k (hk : k < l.length) (hk' : k < r.length), f l[k] = .ok r[k]
  | [], r, h => by
    have : r = [] := by
      have h' : Except.ok [] = Except.ok r := h
      injection h' with h'; exact h'.symm
    subst this; simp
  | x :: l, r, h => by
    rw [List.mapM_cons] at h
    match hx : f x with
    | .error e => rw [hx] at h; exact absurd h (by intro h; cases h)
    | .ok y =>
      rw [hx] at h
      match hl : l.mapM f with
      | .error e => rw [hl] at h; exact absurd h (by intro h; cases h)
      | .ok r' =>
        rw [hl] at h
        have h' : Except.ok (y :: r') = Except.ok r := h
        injection h' with h'
        subst h'
        obtain ⟨h1, h2⟩ := mapM_ok_iff hl
        refine ⟨by simp [h1], ?_⟩
        intro k hk hk'
        cases k with
        | zero => simpa using hx
        | succ k => simpa using h2 k (by simpa using hk) (by simpa using hk')

/-! ### specification of contractions with a left factor -/

section
variable [CommSemiring K]

/-- What `drm.sketch_*` yields for the first `k` modes (docstrings of `abstract_methods.py`), for a
matrix with entries `L p a`. -/
def IsContrL (X : Leaf K) (k r : ℕ) (L : List ℕ → ℕ → K) (M : ND K) : Prop :=
  match X with
  | .sparse X => M.shape = [r, X.nnz] ∧ ∀ (e : ℕ) (he : e < X.entries.length) (a : ℕ), a < r →
      M.get [a, e] = L (X.entries[e].1.take k) a
  | .tt X => ∃ x, TTChain 1 (X.cores.take k) x ∧ M.shape = [x, r] ∧ ∀ y a, a < r →
      M.get [y, a] = sumIdx (X.shape.take k) fun p => ttVal (X.cores.take k) p 0 y * L p a
  | .cp X => M.shape = [X.rank, r] ∧ ∀ i a, i < X.rank → a < r →
      M.get [i, a] = sumIdx (X.shape.take k) fun p => cpProd (X.cores.take k) p i * L p a
  | .dense X => M.shape = [r, (X.shape.take k).prod] ∧ ∀ p a, InR (X.shape.take k) p → a < r →
      M.get [a, ravel (X.shape.take k) p] = L p a
  | .tucker X => M.shape = [(X.rank.take k).prod, r] ∧ ∀ q a, InR (X.rank.take k) q → a < r →
      M.get [ravel (X.rank.take k) q, a]
        = sumIdx (X.shape.take k) fun p => facProd (X.factors.take k) q p * L p a

/-! ### scans -/

theorem ttScan_spec (step : ℕ → ND K → ND K → ND K) (Inv : ℕ → ND K → Prop) :
    ∀ (Cs : List (ND K)) (mu : ℕ) (P : ND K), Inv mu P →
    (∀ k Q, k < Cs.length → Inv (mu + k) Q →
      Inv (mu + k + 1) (step (mu + k + 1) Q (Cs.getD k (ND.zeros [])))) →
    (ttScan step (mu + 1) P Cs).length = Cs.length + 1 ∧
    ∀ k < Cs.length + 1, Inv (mu + k) ((ttScan step (mu + 1) P Cs).getD k (ND.zeros []))
  | [], mu, P, h0, _ => by
    refine ⟨rfl, fun k hk => ?_⟩
    have : k = 0 := by simpa using hk
    subst this
    simpa [ttScan] using h0
  | C :: Cs, mu, P, h0, hs => by
    have h1 := hs 0 P (by simp) h0
    have := ttScan_spec step Inv Cs (mu + 1) (step (mu + 1) P C) (by simpa using h1)
      (fun k Q hk hQ => by
        have e : mu + 1 + k = mu + (k + 1) := by omega
        rw [e] at hQ ⊢
        have := hs (k + 1) Q (by simpa using hk) hQ
        simpa using this)
    refine ⟨by simp [ttScan, this.1], fun k hk => ?_⟩
    cases k with
    | zero => simpa [ttScan] using h0
    | succ k =>
      have h2 := this.2 k (by simpa using hk)
      have e : mu + 1 + k = mu + (k + 1) := by omega
      rw [e] at h2
      simpa [ttScan] using h2

theorem ttRun_spec (first : ND K → ND K) (step : ℕ → ND K → ND K → ND K) (Inv : ℕ → ND K → Prop)
    (cores : List (ND K)) (hne : 0 < cores.length) (h0 : Inv 0 (first (cores.getD 0 (ND.zeros []))))
    (hs : ∀ k Q, k + 1 < cores.length → Inv k Q →
      Inv (k + 1) (step (k + 1) Q (cores.getD (k + 1) (ND.zeros [])))) :
    (ttRun first step cores).length = cores.length ∧
    ∀ k < cores.length, Inv k ((ttRun first step cores).getD k (ND.zeros [])) := by
  match cores, hne with
  | C :: Cs, _ =>
    have := ttScan_spec step Inv Cs 0 (first C) (by simpa using h0)
      (fun k Q hk hQ => by
        have := hs k Q (by simpa using hk) (by simpa using hQ)
        simpa using this)
    refine ⟨by simpa [ttRun] using this.1, fun k hk => ?_⟩
    have h2 := this.2 k (by simpa using hk)
    simpa [ttRun] using h2

/-! ### chains from shapes -/

/-- The cores have shapes `(r k, n k, r (k+1))`. -/
def Cores (cores : List (ND K)) (r n : ℕ → ℕ) : Prop :=
  ∀ k < cores.length, (cores.getD k (ND.zeros [])).shape = [r k, n k, r (k + 1)]

theorem Cores.chain {cores : List (ND K)} {r n : ℕ → ℕ} (h : Cores cores r n) :
    ∀ k ≤ cores.length, TTChain (r 0) (cores.take k) (r k)
  | 0, _ => by simp [TTChain]
  | k + 1, hk => by
    rw [take_succ_getD (by omega) (ND.zeros [])]
    exact (h.chain k (by omega)).append ⟨_, _, h k (by omega), rfl⟩

theorem exists_cores : ∀ {cores : List (ND K)} {a b : ℕ}, TTChain a cores b →
    ∃ r n : ℕ → ℕ, Cores cores r n ∧ r 0 = a ∧ r cores.length = b
  | [], a, b, h => ⟨fun _ => a, fun _ => 0, fun k hk => absurd hk (by simp), rfl, h⟩
  | C :: Cs, a, b, ⟨m, t, hC, hCs⟩ => by
    obtain ⟨r, n, h, h0, h1⟩ := exists_cores hCs
    refine ⟨fun k => match k with | 0 => a | k + 1 => r k, fun k => match k with | 0 => m | k + 1 => n k,
      ?_, rfl, h1⟩
    intro k hk
    cases k with
    | zero => simpa [h0] using hC
    | succ k => simpa using h k (by simpa using hk)

theorem Cores.coreShape {cores : List (ND K)} {r n : ℕ → ℕ} (h : Cores cores r n) (k : ℕ)
    (hk : k ≤ cores.length) : coreShape (cores.take k) = (List.range k).map n := by
  induction k with
  | zero => simp [TTS.coreShape]
  | succ k ih =>
    rw [take_succ_getD (l := cores) (by omega) (ND.zeros []), coreShape_append, ih (by omega),
      List.range_succ, List.map_append]
    congr 1
    show [ND.dim _ 1] = _
    rw [(dim_of_shape3 (h k (by omega))).2.1]; rfl

/-- appending one core -/
theorem Cores.val_succ {cores : List (ND K)} {r n : ℕ → ℕ} (h : Cores cores r n) (h0 : r 0 = 1)
    (k : ℕ) (hk : k < cores.length) (p : List ℕ) (hp : p.length = k) (i b : ℕ) :
    ttVal (cores.take (k + 1)) (p ++ [i]) 0 b
      = ∑ x ∈ range (r k), ttVal (cores.take k) p 0 x * (cores.getD k (ND.zeros [])).get [x, i, b] := by
  rw [take_succ_getD hk (ND.zeros [])]
  exact ttVal_concat (h.chain k hk.le) (h k hk) p (by simp [hp]; omega) i 0 b (by omega)

theorem ttVal_single {C : ND K} {n t : ℕ} (hC : C.shape = [1, n, t]) (i b : ℕ) :
    ttVal [C] [i] 0 b = C.get [0, i, b] := by
  rw [ttVal_cons hC]
  by_cases hb : b < t
  · rw [sum_eq_single_of_mem b (by simpa using hb)]
    · simp
    · intro x _ hx; simp [hx]
  · rw [ND.oob3 hC (by tauto)]
    refine sum_eq_zero fun x hx => ?_
    have : x ≠ b := by simp at hx; omega
    simp [this]

theorem Cores.val_one {cores : List (ND K)} {r n : ℕ → ℕ} (h : Cores cores r n) (h0 : r 0 = 1)
    (hk : 0 < cores.length) (i b : ℕ) :
    ttVal (cores.take 1) [i] 0 b = (cores.getD 0 (ND.zeros [])).get [0, i, b] := by
  rw [take_two_getD hk (ND.zeros [])]
  exact ttVal_single (by simpa [h0] using h 0 hk) i b

/-! ### `TensorTrainDRM` with each format, before slicing -/

theorem ND.takeAxis1_shape {C : ND K} {a b c : ℕ} (hC : C.shape = [a, b, c]) (l : List ℕ) :
    (C.takeAxis1 l).shape = [a, l.length, c] := by simp [ND.takeAxis1, ND.dim, hC]

theorem ND.takeAxis1_get {C : ND K} {a b c : ℕ} (hC : C.shape = [a, b, c]) (l : List ℕ) (x y z : ℕ)
    (hy : y < l.length) : (C.takeAxis1 l).get [x, y, z] = C.get [x, l.getD y 0, z] := by
  by_cases h : InR (C.takeAxis1 l).shape [x, y, z]
  · exact (ND.ofFn_get h).trans rfl
  · rw [ND.supp _ _ h, ND.oob3 hC]
    intro h'
    rw [ND.takeAxis1_shape hC] at h
    exact h ⟨h'.1, hy, h'.2.2, trivial⟩

omit [CommSemiring K] in
theorem Sparse.row_length (X : Sparse K) (mu : ℕ) : (X.row mu).length = X.nnz := by
  simp [Sparse.row, Sparse.nnz]

omit [CommSemiring K] in
theorem Sparse.row_getD (X : Sparse K) (mu e : ℕ) (he : e < X.entries.length) :
    (X.row mu).getD e 0 = X.entries[e].1.getD mu 0 := by
  rw [getD_eq (by simpa [Sparse.row] using he)]; simp [Sparse.row]

theorem ttSketchSparse_spec {cores : List (ND K)} {r n : ℕ → ℕ} (h : Cores cores r n) (h0 : r 0 = 1)
    (hne : 0 < cores.length) (X : Sparse K) (hX : X.Valid) (hd : cores.length ≤ X.shape.length) :
    (ttSketchSparse cores X).length = cores.length ∧ ∀ k < cores.length,
      ((ttSketchSparse cores X).getD k (ND.zeros [])).shape = [X.nnz, r (k + 1)] ∧
      ∀ (e : ℕ) (he : e < X.entries.length) (b : ℕ),
        ((ttSketchSparse cores X).getD k (ND.zeros [])).get [e, b]
          = ttVal (cores.take (k + 1)) (X.entries[e].1.take (k + 1)) 0 b := by
  refine ttRun_spec _ _ (fun k P => P.shape = [X.nnz, r (k + 1)] ∧
      ∀ (e : ℕ) (he : e < X.entries.length) (b : ℕ),
        P.get [e, b] = ttVal (cores.take (k + 1)) (X.entries[e].1.take (k + 1)) 0 b) cores hne ?_ ?_
  · have hC := h 0 hne
    rw [h0] at hC
    have hs := ND.takeAxis1_shape hC (X.row 0)
    rw [X.row_length] at hs
    refine ⟨by rw [ND.reshape_shape, hs]; rfl, fun e he b => ?_⟩
    rw [hs]
    have hl : (X.entries[e].1).length = X.shape.length := (hX _ (List.getElem_mem he)).length
    rw [show ([1, X.nnz, r (0 + 1)] : List ℕ).tail = [X.nnz, r (0 + 1)] from rfl,
      ND.reshape_drop_one hs, ND.takeAxis1_get hC _ _ _ _ (by rw [X.row_length]; exact he),
      X.row_getD _ _ he, take_two_getD (l := X.entries[e].1) (by omega) 0]
    exact (h.val_one h0 hne _ _).symm
  · intro k Q hk hQ
    have hC := h (k + 1) hk
    have hs := ND.takeAxis1_shape hC (X.row (k + 1))
    rw [X.row_length] at hs
    refine ⟨ND.es_ijk_ji_jk_shape hs hQ.1, fun e he b => ?_⟩
    have hl : (X.entries[e].1).length = X.shape.length := (hX _ (List.getElem_mem he)).length
    rw [ND.es_ijk_ji_jk_get hs hQ.1, take_succ_getD (l := X.entries[e].1) (k := k + 1) (by omega) 0,
      h.val_succ h0 (k + 1) hk _ (by simp; omega)]
    refine sum_congr rfl fun x _ => ?_
    rw [ND.takeAxis1_get hC _ _ _ _ (by rw [X.row_length]; exact he), X.row_getD _ _ he, hQ.2 e he,
      mul_comm]

theorem ttSketchTT_spec {cores : List (ND K)} {r n : ℕ → ℕ} (h : Cores cores r n) (h0 : r 0 = 1)
    (hne : 0 < cores.length) (X : TT K) {x : ℕ → ℕ} (hX : Cores X.cores x n) (hx0 : x 0 = 1)
    (hd : cores.length ≤ X.cores.length) :
    (ttSketchTT cores X).length = cores.length ∧ ∀ k < cores.length,
      ((ttSketchTT cores X).getD k (ND.zeros [])).shape = [x (k + 1), r (k + 1)] ∧
      ∀ y b, ((ttSketchTT cores X).getD k (ND.zeros [])).get [y, b]
          = sumIdx ((List.range (k + 1)).map n) fun p =>
              ttVal (X.cores.take (k + 1)) p 0 y * ttVal (cores.take (k + 1)) p 0 b := by
  refine ttRun_spec _ _ (fun k P => P.shape = [x (k + 1), r (k + 1)] ∧
      ∀ y b, P.get [y, b] = sumIdx ((List.range (k + 1)).map n) fun p =>
              ttVal (X.cores.take (k + 1)) p 0 y * ttVal (cores.take (k + 1)) p 0 b) cores hne ?_ ?_
  · have hC := h 0 hne
    have hXC := hX 0 (by omega)
    refine ⟨ND.es_ijk_ijl_kl_shape hXC hC, fun y b => ?_⟩
    rw [ND.es_ijk_ijl_kl_get hXC hC, hx0]
    simp only [List.range_one, List.map_cons, List.map_nil, sumIdx_cons, sumIdx_nil, range_one,
      sum_singleton, zero_add]
    refine sum_congr rfl fun i _ => ?_
    rw [hX.val_one hx0 (by omega), h.val_one h0 hne]
  · intro k Q hk hQ
    have hC := h (k + 1) hk
    have hXC := hX (k + 1) (by omega)
    refine ⟨ND.es_ij_ikl_jkm_lm_shape hQ.1 hXC hC, fun y b => ?_⟩
    rw [ND.es_ij_ikl_jkm_lm_get hQ.1 hXC hC, List.range_succ, List.map_append, sumIdx_append]
    simp only [List.map_cons, List.map_nil, sumIdx_cons, sumIdx_nil]
    have e : sumIdx ((List.range (k + 1)).map n) (fun p => ∑ i ∈ range (n (k + 1)),
          ttVal (X.cores.take (k + 1 + 1)) (p ++ [i]) 0 y * ttVal (cores.take (k + 1 + 1)) (p ++ [i]) 0 b)
        = sumIdx ((List.range (k + 1)).map n) (fun p => ∑ i ∈ range (n (k + 1)),
          ∑ u ∈ range (x (k + 1)), ∑ v ∈ range (r (k + 1)),
            (ttVal (X.cores.take (k + 1)) p 0 u * ttVal (cores.take (k + 1)) p 0 v)
            * ((X.cores.getD (k + 1) (ND.zeros [])).get [u, i, y]
              * (cores.getD (k + 1) (ND.zeros [])).get [v, i, b])) := by
      refine sumIdx_congr fun p hp => sum_congr rfl fun i _ => ?_
      have hl : p.length = k + 1 := by simpa using hp.length
      rw [hX.val_succ hx0 _ (by omega) p hl, h.val_succ h0 _ hk p hl, sum_mul_sum]
      refine sum_congr rfl fun u _ => sum_congr rfl fun v _ => by ring
    rw [e]
    simp only [sumIdx_sum, ← sumIdx_mul]
    rw [sum_comm_cycle]
    refine sum_congr rfl fun i _ => sum_congr rfl fun u _ => sum_congr rfl fun v _ => ?_
    rw [hQ.2 u v]

theorem Cores.shapeTT {X : TT K} {x n : ℕ → ℕ} (hX : Cores X.cores x n) {k : ℕ}
    (hk : k ≤ X.cores.length) : X.shape.take k = (List.range k).map n := by
  rw [← hX.coreShape k hk, TTS.coreShape, List.map_take]; rfl

theorem ttSketchCP_spec {cores : List (ND K)} {r n : ℕ → ℕ} (h : Cores cores r n) (h0 : r 0 = 1)
    (hne : 0 < cores.length) (X : CP K) {R : ℕ}
    (hX : ∀ k < X.cores.length, (X.cores.getD k (ND.zeros [])).shape = [n k, R])
    (hd : cores.length ≤ X.cores.length) :
    (ttSketchCP cores X).length = cores.length ∧ ∀ k < cores.length,
      ((ttSketchCP cores X).getD k (ND.zeros [])).shape = [R, r (k + 1)] ∧
      ∀ i b, ((ttSketchCP cores X).getD k (ND.zeros [])).get [i, b]
          = sumIdx ((List.range (k + 1)).map n) fun p =>
              cpProd (X.cores.take (k + 1)) p i * ttVal (cores.take (k + 1)) p 0 b := by
  have hcp : ∀ k < X.cores.length, ∀ (p : List ℕ) (i c : ℕ), p.length = k →
      cpProd (X.cores.take (k + 1)) (p ++ [i]) c = cpProd (X.cores.take k) p c
        * (X.cores.getD k (ND.zeros [])).get [i, c] := by
    intro k hk p i c hp
    rw [take_succ_getD hk (ND.zeros []), cpProd_append _ _ _ _ _ (by simp; omega)]
    simp [cpProd]
  refine ttRun_spec _ _ (fun k P => P.shape = [R, r (k + 1)] ∧
      ∀ i b, P.get [i, b] = sumIdx ((List.range (k + 1)).map n) fun p =>
              cpProd (X.cores.take (k + 1)) p i * ttVal (cores.take (k + 1)) p 0 b) cores hne ?_ ?_
  · have hC := h 0 hne
    have hXC := hX 0 (by omega)
    refine ⟨ND.es_ij_lik_jk_shape hXC hC, fun y b => ?_⟩
    rw [ND.es_ij_lik_jk_get hXC hC, h0]
    simp only [List.range_one, List.map_cons, List.map_nil, sumIdx_cons, sumIdx_nil, range_one,
      sum_singleton, zero_add]
    refine sum_congr rfl fun i _ => ?_
    have := hcp 0 (by omega) [] i y rfl
    simp only [List.nil_append, zero_add, List.take_zero] at this
    rw [this, h.val_one h0 hne]
    simp [cpProd]
  · intro k Q hk hQ
    have hC := h (k + 1) hk
    have hXC := hX (k + 1) (by omega)
    refine ⟨ND.es_ij_ki_jkl_il_shape hQ.1 hXC hC, fun y b => ?_⟩
    rw [ND.es_ij_ki_jkl_il_get hQ.1 hXC hC, List.range_succ, List.map_append, sumIdx_append]
    simp only [List.map_cons, List.map_nil, sumIdx_cons, sumIdx_nil]
    have e : sumIdx ((List.range (k + 1)).map n) (fun p => ∑ i ∈ range (n (k + 1)),
          cpProd (X.cores.take (k + 1 + 1)) (p ++ [i]) y * ttVal (cores.take (k + 1 + 1)) (p ++ [i]) 0 b)
        = sumIdx ((List.range (k + 1)).map n) (fun p => ∑ i ∈ range (n (k + 1)),
          ∑ v ∈ range (r (k + 1)),
            (cpProd (X.cores.take (k + 1)) p y * ttVal (cores.take (k + 1)) p 0 v)
            * ((X.cores.getD (k + 1) (ND.zeros [])).get [i, y]
              * (cores.getD (k + 1) (ND.zeros [])).get [v, i, b])) := by
      refine sumIdx_congr fun p hp => sum_congr rfl fun i _ => ?_
      have hl : p.length = k + 1 := by simpa using hp.length
      rw [hcp _ (by omega) p _ _ hl, h.val_succ h0 _ hk p hl, mul_sum]
      refine sum_congr rfl fun v _ => by ring
    rw [e]
    simp only [sumIdx_sum, ← sumIdx_mul]
    rw [sum_comm]
    refine sum_congr rfl fun i _ => sum_congr rfl fun u _ => ?_
    rw [hQ.2 y u]

theorem range_map_prod_pos {n : ℕ → ℕ} {p : List ℕ} {k : ℕ} (hp : InR ((List.range (k + 1)).map n) p) :
    ∃ q i, p = q ++ [i] ∧ InR ((List.range k).map n) q ∧ i < n k := by
  rw [List.range_succ, List.map_append] at hp
  have hl := hp.length
  have hne : p ≠ [] := by rintro rfl; simp at hl
  refine ⟨p.dropLast, p.getLast hne, (List.dropLast_append_getLast hne).symm, ?_⟩
  rw [← List.dropLast_append_getLast hne, inR_append (by simp at hl ⊢; omega)] at hp
  simpa using hp

theorem ttSketchDense_spec {cores : List (ND K)} {r n : ℕ → ℕ} (h : Cores cores r n) (h0 : r 0 = 1)
    (hne : 0 < cores.length) :
    (ttSketchDense cores).length = cores.length ∧ ∀ k < cores.length,
      ((ttSketchDense cores).getD k (ND.zeros [])).shape
        = [((List.range (k + 1)).map n).prod, r (k + 1)] ∧
      ∀ p b, InR ((List.range (k + 1)).map n) p →
        ((ttSketchDense cores).getD k (ND.zeros [])).get [ravel ((List.range (k + 1)).map n) p, b]
          = ttVal (cores.take (k + 1)) p 0 b := by
  refine ttRun_spec _ _ (fun k P => P.shape = [((List.range (k + 1)).map n).prod, r (k + 1)] ∧
      ∀ p b, InR ((List.range (k + 1)).map n) p →
        P.get [ravel ((List.range (k + 1)).map n) p, b] = ttVal (cores.take (k + 1)) p 0 b)
    cores hne ?_ ?_
  · have hC := h 0 hne
    rw [h0] at hC
    refine ⟨by rw [ND.reshape_shape, (dim_of_shape3 hC).1, (dim_of_shape3 hC).2.1, (dim_of_shape3 hC).2.2]; simp, fun p b hp => ?_⟩
    obtain ⟨q, i, rfl, hq, hi⟩ := range_map_prod_pos hp
    have : q = [] := by simpa using hq.length
    subst this
    obtain ⟨e0, e1, e2⟩ := dim_of_shape3 hC
    rw [e0, e1, e2, List.nil_append, h.val_one h0 hne, ← ND.reshape_merge12 hC 0 i b hi]
    simp
  · intro k Q hk hQ
    have hC := h (k + 1) hk
    have hN := ND.es_ij_jkl_ikl_shape hQ.1 hC
    obtain ⟨e0, e1, e2⟩ := dim_of_shape3 hN
    constructor
    · simp only [ND.reshape_shape]
      rw [e0, e1, e2, List.range_succ (n := k + 1), List.map_append, List.prod_append]; simp
    · intro p b hp
      obtain ⟨q, i, rfl, hq, hi⟩ := range_map_prod_pos hp
      simp only []
      rw [e0, e1, e2, List.range_succ (n := k + 1), List.map_append, ravel_append hq.length]
      simp only [List.map_cons, List.map_nil, List.prod_cons, List.prod_nil, mul_one, ravel_cons,
        ravel_nil, add_zero]
      rw [ND.reshape_merge12 hN _ _ _ hi, ND.es_ij_jkl_ikl_get hQ.1 hC,
        h.val_succ h0 _ hk q (by simpa using hq.length)]
      exact sum_congr rfl fun x _ => by rw [hQ.2 q x hq]

theorem ttSketchTucker_spec {cores : List (ND K)} {r n s : ℕ → ℕ} (h : Cores cores r n) (h0 : r 0 = 1)
    (hne : 0 < cores.length) (X : Tucker K)
    (hX : ∀ k < X.factors.length, (X.factors.getD k (ND.zeros [])).shape = [s k, n k])
    (hd : cores.length ≤ X.factors.length) (hs0 : X.rank.getD 0 0 = s 0) :
    (ttSketchTucker cores (r 1) X).length = cores.length ∧ ∀ k < cores.length,
      ((ttSketchTucker cores (r 1) X).getD k (ND.zeros [])).shape
        = [((List.range (k + 1)).map s).prod, r (k + 1)] ∧
      ∀ q b, InR ((List.range (k + 1)).map s) q →
        ((ttSketchTucker cores (r 1) X).getD k (ND.zeros [])).get
            [ravel ((List.range (k + 1)).map s) q, b]
          = sumIdx ((List.range (k + 1)).map n) fun p =>
              facProd (X.factors.take (k + 1)) q p * ttVal (cores.take (k + 1)) p 0 b := by
  have hfp : ∀ k < X.factors.length, ∀ (q p : List ℕ) (j i : ℕ), q.length = k → p.length = k →
      facProd (X.factors.take (k + 1)) (q ++ [j]) (p ++ [i]) = facProd (X.factors.take k) q p
        * (X.factors.getD k (ND.zeros [])).get [j, i] := by
    intro k hk q p j i hq hp
    rw [take_succ_getD hk (ND.zeros []), facProd_append _ _ _ _ _ _ (by simp; omega) (by simp; omega)]
    simp [facProd]
  refine ttRun_spec _ _ (fun k P => P.shape = [((List.range (k + 1)).map s).prod, r (k + 1)] ∧
      ∀ q b, InR ((List.range (k + 1)).map s) q →
        P.get [ravel ((List.range (k + 1)).map s) q, b]
          = sumIdx ((List.range (k + 1)).map n) fun p =>
              facProd (X.factors.take (k + 1)) q p * ttVal (cores.take (k + 1)) p 0 b) cores hne ?_ ?_
  · have hC := h 0 hne
    have hXC := hX 0 (by omega)
    have hM := ND.matT_shape hXC
    have hE := ND.es_ijk_jl_ilk_shape hC hM
    rw [h0] at hE
    refine ⟨by rw [ND.reshape_shape, hs0]; simp, fun q b hq => ?_⟩
    obtain ⟨q', j, rfl, hq', hj⟩ := range_map_prod_pos hq
    have : q' = [] := by simpa using hq'.length
    subst this
    rw [hs0]
    have e : ravel ((List.range (0 + 1)).map s) ([] ++ [j]) = j := by simp
    rw [e, ND.reshape_drop_one (by rw [hE]), ND.es_ijk_jl_ilk_get hC hM]
    simp only [zero_add, List.range_one, List.map_cons, List.map_nil, sumIdx_cons, sumIdx_nil]
    refine sum_congr rfl fun i _ => ?_
    have := hfp 0 (by omega) [] [] j i rfl rfl
    simp only [List.nil_append, zero_add, List.take_zero] at this
    rw [List.nil_append, this, h.val_one h0 hne, ND.matT_get hXC]
    simp [facProd, mul_comm]
  · intro k Q hk hQ
    have hC := h (k + 1) hk
    have hXC := hX (k + 1) (by omega)
    have hM := ND.matT_shape hXC
    have hE := ND.es_jkl_km_jml_shape hC hM
    have hN := ND.es_ij_jml_iml_shape hQ.1 hE
    obtain ⟨e0, e1, e2⟩ := dim_of_shape3 hN
    constructor
    · simp only [ND.reshape_shape]
      rw [e0, e1, e2, List.range_succ (n := k + 1), List.map_append, List.prod_append]; simp
    · intro q b hq
      obtain ⟨q, j, rfl, hq, hj⟩ := range_map_prod_pos hq
      simp only []
      rw [e0, e1, e2, List.range_succ (n := k + 1), List.map_append, ravel_append hq.length]
      simp only [List.map_cons, List.map_nil, List.prod_cons, List.prod_nil, mul_one, ravel_cons,
        ravel_nil, add_zero]
      rw [ND.reshape_merge12 hN _ _ _ hj, ND.es_ij_jml_iml_get hQ.1 hE, List.map_append, sumIdx_append]
      simp only [List.map_cons, List.map_nil, sumIdx_cons, sumIdx_nil]
      have e : sumIdx ((List.range (k + 1)).map n) (fun p => ∑ i ∈ range (n (k + 1)),
            facProd (X.factors.take (k + 1 + 1)) (q ++ [j]) (p ++ [i])
              * ttVal (cores.take (k + 1 + 1)) (p ++ [i]) 0 b)
          = sumIdx ((List.range (k + 1)).map n) (fun p => ∑ i ∈ range (n (k + 1)),
            ∑ v ∈ range (r (k + 1)),
              (facProd (X.factors.take (k + 1)) q p * ttVal (cores.take (k + 1)) p 0 v)
              * ((X.factors.getD (k + 1) (ND.zeros [])).get [j, i]
                * (cores.getD (k + 1) (ND.zeros [])).get [v, i, b])) := by
        refine sumIdx_congr fun p hp => sum_congr rfl fun i _ => ?_
        have hl : p.length = k + 1 := by simpa using hp.length
        rw [hfp _ (by omega) q p _ _ (by simpa using hq.length) hl, h.val_succ h0 _ hk p hl, mul_sum]
        refine sum_congr rfl fun v _ => by ring
      rw [e]
      simp only [sumIdx_sum, ← sumIdx_mul]
      rw [sum_comm]
      refine sum_congr rfl fun v _ => ?_
      rw [hQ.2 q v hq, ND.es_jkl_km_jml_get hC hM, mul_sum]
      refine sum_congr rfl fun i _ => ?_
      rw [ND.matT_get hXC, mul_comm ((cores.getD _ _).get _)]

theorem getD_map_lt {α β : Type*} (f : α → β) (l : List α) (k : ℕ) (hk : k < l.length) (z : α) (z' : β) :
    (l.map f).getD k z' = f (l.getD k z) := by
  rw [getD_eq (by simpa using hk), getD_eq hk]; simp

/-- the shape of the `k`-th core from the chain and the declared shape -/
theorem TT.Valid.cores {X : TT K} (h : X.Valid) : ∃ x : ℕ → ℕ,
    Cores X.cores x (fun k => X.shape.getD k 0) ∧ x 0 = 1 ∧ x X.cores.length = 1 := by
  obtain ⟨x, n, hc, h0, h1⟩ := exists_cores h.2
  refine ⟨x, fun k hk => ?_, h0, h1⟩
  have e : X.shape.getD k 0 = n k := by
    unfold TT.shape
    rw [getD_map_lt _ _ k hk (ND.zeros [])]
    exact (dim_of_shape3 (hc k hk)).2.1
  simp only [e]
  exact hc k hk

end
end TTS
