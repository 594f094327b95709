import Verif.Spec.Tensor

/-! Proofs about dense conversion of the structured formats. -/

namespace TTS

open Finset

variable {K : Type*}

theorem TTChain.append [Zero K] : ∀ {As Bs : List (ND K)} {r s t : ℕ},
    TTChain r As s → TTChain s Bs t → TTChain r (As ++ Bs) t
  | [], _, _, _, _, h, h' => by cases h; exact h'
  | _ :: _, _, _, _, _, ⟨n, q, hC, hCs⟩, h' => ⟨n, q, hC, hCs.append h'⟩

theorem TTChain.split [Zero K] : ∀ {As Bs : List (ND K)} {r t : ℕ},
    TTChain r (As ++ Bs) t → ∃ s, TTChain r As s ∧ TTChain s Bs t
  | [], _, r, _, h => ⟨r, rfl, h⟩
  | _ :: _, _, _, _, ⟨n, q, hC, hCs⟩ =>
    let ⟨s, h1, h2⟩ := hCs.split
    ⟨s, ⟨n, q, hC, h1⟩, h2⟩

theorem TTChain.unique [Zero K] : ∀ {As : List (ND K)} {r s t : ℕ}, As ≠ [] →
    TTChain r As s → TTChain r As t → s = t
  | [C], _, s, t, _, ⟨n, q, hC, h⟩, ⟨n', q', hC', h'⟩ => by
    cases h; cases h'; rw [hC] at hC'; simp at hC'; exact hC'.2
  | C :: D :: Ds, _, s, t, _, ⟨n, q, hC, h⟩, ⟨n', q', hC', h'⟩ => by
    rw [hC] at hC'; simp at hC'; obtain ⟨rfl, rfl⟩ := hC'
    exact TTChain.unique (by simp) h h'

theorem dim_of_shape3 [Zero K] {C : ND K} {a b c : ℕ} (h : C.shape = [a, b, c]) :
    C.dim 0 = a ∧ C.dim 1 = b ∧ C.dim 2 = c := by simp [ND.dim, h]

section
variable [CommSemiring K]

@[simp] theorem ttVal_nil_nil (a b : ℕ) : (ttVal [] [] a b : K) = if a = b then 1 else 0 := rfl

theorem ttVal_cons {C : ND K} {r n t : ℕ} (h : C.shape = [r, n, t]) (Cs : List (ND K)) (i : ℕ)
    (is : List ℕ) (a b : ℕ) :
    ttVal (C :: Cs) (i :: is) a b = ∑ x ∈ range t, C.get [a, i, x] * ttVal Cs is x b := by
  show ∑ x ∈ range (C.dim 2), _ = _
  rw [(dim_of_shape3 h).2.2]

theorem ttVal_length : ∀ (Cs : List (ND K)) (i : List ℕ) (a b : ℕ), i.length ≠ Cs.length →
    ttVal Cs i a b = 0
  | [], [], _, _, h => absurd rfl h
  | [], _ :: _, _, _, _ => rfl
  | _ :: _, [], _, _, _ => rfl
  | C :: Cs, i :: is, a, b, h => by
    apply sum_eq_zero
    intro x _
    rw [ttVal_length Cs is x b (by simpa using h), mul_zero]

/-- Shape of a list of cores. -/
def coreShape (Cs : List (ND K)) : List ℕ := Cs.map fun C => C.dim 1

theorem coreShape_append (As Bs : List (ND K)) :
    coreShape (As ++ Bs) = coreShape As ++ coreShape Bs := by simp [coreShape]

theorem coreShape_length (As : List (ND K)) : (coreShape As).length = As.length := by
  simp [coreShape]

theorem ttVal_oob : ∀ {Cs : List (ND K)} {r s : ℕ}, TTChain r Cs s → ∀ {i : List ℕ} (a b : ℕ),
    ¬ InR (coreShape Cs) i → ttVal Cs i a b = 0
  | [], _, _, _, [], _, _, h => absurd trivial h
  | [], _, _, _, _ :: _, _, _, _ => rfl
  | _ :: _, _, _, _, [], _, _, _ => rfl
  | C :: Cs, r, s, ⟨n, t, hC, hCs⟩, i :: is, a, b, h => by
    rw [ttVal_cons hC]
    apply sum_eq_zero
    intro x _
    have hd := (dim_of_shape3 hC).2.1
    by_cases hi : i < n
    · have : ¬ InR (coreShape Cs) is := by
        intro h2; apply h
        show i < C.dim 1 ∧ _
        exact ⟨by omega, h2⟩
      rw [ttVal_oob hCs x b this, mul_zero]
    · rw [ND.oob3 hC (by tauto), zero_mul]

theorem ttVal_oob_left {C : ND K} {Cs : List (ND K)} {r s : ℕ} (h : TTChain r (C :: Cs) s)
    (i : List ℕ) {a : ℕ} (b : ℕ) (ha : ¬ a < r) : ttVal (C :: Cs) i a b = 0 := by
  obtain ⟨n, t, hC, hCs⟩ := h
  cases i with
  | nil => rfl
  | cons i is =>
    rw [ttVal_cons hC]
    exact sum_eq_zero fun x _ => by rw [ND.oob3 hC (by tauto), zero_mul]

theorem ttVal_append : ∀ {As : List (ND K)} {r s : ℕ}, TTChain r As s → ∀ (Bs : List (ND K))
    (p q : List ℕ), p.length = As.length → ∀ (a b : ℕ), a < r →
    ttVal (As ++ Bs) (p ++ q) a b = ∑ t ∈ range s, ttVal As p a t * ttVal Bs q t b
  | [], r, s, h, Bs, [], q, _, a, b, ha => by
    cases h
    simp [ha]
  | C :: As, r, s, ⟨n, t, hC, hCs⟩, Bs, i :: p, q, hp, a, b, _ => by
    simp only [List.cons_append]
    rw [ttVal_cons hC]
    have : ∀ x ∈ range t, C.get [a, i, x] * ttVal (As ++ Bs) (p ++ q) x b
        = ∑ y ∈ range s, C.get [a, i, x] * ttVal As p x y * ttVal Bs q y b := by
      intro x hx
      rw [ttVal_append hCs Bs p q (by simpa using hp) x b (by simpa using hx), mul_sum]
      exact sum_congr rfl fun y _ => by rw [mul_assoc]
    rw [sum_congr rfl this, sum_comm]
    refine sum_congr rfl fun y _ => ?_
    rw [ttVal_cons hC, sum_mul]
  | [], _, _, _, _, _ :: _, _, h, _, _, _ => by simp at h
  | _ :: _, _, _, _, _, [], _, h, _, _, _ => by simp at h

/-- last core split off -/
theorem ttVal_concat {As : List (ND K)} {C : ND K} {r s n t : ℕ} (h : TTChain r As s)
    (hC : C.shape = [s, n, t]) (p : List ℕ) (hp : p.length = As.length) (i a b : ℕ) (ha : a < r) :
    ttVal (As ++ [C]) (p ++ [i]) a b = ∑ x ∈ range s, ttVal As p a x * C.get [x, i, b] := by
  rw [ttVal_append h _ _ _ hp _ _ ha]
  refine sum_congr rfl fun x _ => ?_
  rw [ttVal_cons hC]
  congr 1
  by_cases hb : b < t
  · rw [sum_eq_single b]
    · simp
    · intro y _ hy; simp [hy]
    · intro h; exact absurd (mem_range.2 hb) h
  · rw [ND.oob3 hC (by tauto)]
    apply sum_eq_zero
    intro y hy
    have : y ≠ b := by have := mem_range.1 hy; omega
    simp [this]

theorem tr_chain : ∀ {As : List (ND K)} {r s : ℕ}, TTChain r As s →
    TTChain s (As.reverse.map fun C => C.transpose [2, 1, 0]) r
  | [], _, _, h => by cases h; rfl
  | C :: As, r, s, ⟨n, t, hC, hCs⟩ => by
    simp only [List.reverse_cons, List.map_append, List.map_cons, List.map_nil]
    exact (tr_chain hCs).append ⟨n, r, ND.transpose210_shape hC, rfl⟩

theorem ttVal_tr : ∀ {As : List (ND K)} {r s : ℕ}, TTChain r As s → ∀ (p : List ℕ)
    (a b : ℕ), a < r → b < s →
    ttVal (As.reverse.map fun C => C.transpose [2, 1, 0]) p.reverse b a = ttVal As p a b
  | [], _, _, _, [], a, b, _, _ => by simp [eq_comm]
  | [], _, _, _, i :: p, a, b, _, _ => by
    rw [ttVal_length _ _ _ _ (by simp), ttVal_length _ _ _ _ (by simp)]
  | C :: As, r, s, _, [], a, b, _, _ => by
    rw [ttVal_length _ _ _ _ (by simp), ttVal_length _ _ _ _ (by simp)]
  | C :: As, r, s, ⟨n, t, hC, hCs⟩, i :: p, a, b, ha, hb => by
    by_cases hp : p.length = As.length
    · simp only [List.reverse_cons, List.map_append, List.map_cons, List.map_nil]
      rw [ttVal_concat (tr_chain hCs) (ND.transpose210_shape hC) _ (by simpa using hp) _ _ _ hb,
        ttVal_cons hC]
      refine sum_congr rfl fun x hx => ?_
      rw [ttVal_tr hCs p x b (by simpa using hx) hb, ND.transpose210_get hC, mul_comm]
    · rw [ttVal_length _ _ _ _ (by simpa using hp), ttVal_length _ _ _ _ (by simpa using hp)]

/-! ### TT.to_numpy -/

theorem foldl_ej_jkl : ∀ (Cs : List (ND K)) {A : ND K} {s : List ℕ} {r t : ℕ},
    A.shape = s ++ [r] → TTChain r Cs t →
    (Cs.foldl ND.es_ej_jkl A).shape = s ++ coreShape Cs ++ [t] ∧
    ∀ (p q : List ℕ) (b : ℕ), p.length = s.length → q.length = Cs.length →
      (Cs.foldl ND.es_ej_jkl A).get (p ++ q ++ [b])
        = ∑ a ∈ range r, A.get (p ++ [a]) * ttVal Cs q a b
  | [], A, s, r, t, hA, h => by
    cases h
    refine ⟨by simp [coreShape, hA], fun p q b hp hq => ?_⟩
    have : q = [] := by simpa using hq
    subst this
    simp only [List.foldl_nil, List.append_nil, ttVal_nil_nil, mul_ite, mul_one, mul_zero]
    by_cases hb : b < r
    · rw [sum_ite_eq' (range r) b]; simp [hb]
    · rw [A.supp]
      · symm; apply sum_eq_zero
        intro x hx; have := mem_range.1 hx
        rw [if_neg (by omega)]
      · rw [hA, inR_append hp]; simp; intro _; omega
  | C :: Cs, A, s, r, t, hA, ⟨n, u, hC, hCs⟩ => by
    have hA' : (ND.es_ej_jkl A C).shape = (s ++ [n]) ++ [u] := by
      rw [ND.es_ej_jkl_shape hA hC]; simp
    obtain ⟨h1, h2⟩ := foldl_ej_jkl Cs hA' hCs
    refine ⟨?_, ?_⟩
    · rw [List.foldl_cons, h1]
      simp [coreShape, (dim_of_shape3 hC).2.1]
    · intro p q b hp hq
      match q, hq with
      | i :: q, hq =>
        rw [List.foldl_cons]
        have := h2 (p ++ [i]) q b (by simp [hp]) (by simpa using hq)
        rw [show p ++ i :: q ++ [b] = p ++ [i] ++ q ++ [b] by simp, this]
        have e : ∀ x, (ND.es_ej_jkl A C).get (p ++ [i] ++ [x])
            = ∑ a ∈ range r, A.get (p ++ [a]) * C.get [a, i, x] := by
          intro x
          rw [← ND.es_ej_jkl_get hA hC p hp i x]; simp
        simp only [e, ttVal_cons hC, sum_mul, mul_sum]
        rw [sum_comm]
        refine sum_congr rfl fun a _ => sum_congr rfl fun x _ => by ring

theorem TT.toNumpy_shape {X : TT K} (h : X.Valid) : X.toNumpy.shape = X.shape := by
  obtain ⟨hne, hch⟩ := h
  obtain ⟨cores⟩ := X
  match cores, hne, hch with
  | C :: Cs, _, ⟨n, t, hC, hCs⟩ =>
    have hA : (C.reshape C.shape.tail).shape = [n] ++ [t] := by simp [hC]
    obtain ⟨h1, _⟩ := foldl_ej_jkl Cs hA hCs
    simp only [toNumpy, shape]
    rw [ND.reshape_shape, h1, List.dropLast_concat]
    simp [coreShape, ND.dim, hC]

theorem TT.toNumpy_get {X : TT K} (h : X.Valid) (idx : List ℕ) :
    X.toNumpy.get idx = ttEntry X idx := by
  by_cases hin : InR X.shape idx
  · have hsh := TT.toNumpy_shape h
    obtain ⟨hne, hch⟩ := h
    obtain ⟨cores⟩ := X
    match cores, hne, hch with
    | C :: Cs, _, ⟨n, t, hC, hCs⟩ =>
      match idx, hin with
      | i :: is, hin =>
        have hA : (C.reshape C.shape.tail).shape = [n] ++ [t] := by simp [hC]
        obtain ⟨h1, h2⟩ := foldl_ej_jkl Cs hA hCs
        simp only [toNumpy, ttEntry]
        rw [ND.reshape_drop_last_one (s := _) (by rw [h1, List.dropLast_concat])]
        have := h2 [i] is 0 rfl (by simpa [TT.shape] using hin.length)
        simp only [List.cons_append, List.nil_append] at this ⊢
        rw [this, ttVal_cons hC]
        refine sum_congr rfl fun x _ => ?_
        rw [ND.reshape_drop_one (by simp [hC])]
  · rw [ND.supp _ _ (by rw [TT.toNumpy_shape h]; exact hin), ttEntry, ttVal_oob h.2 _ _ hin]

/-! ### CP -/

theorem cpProd_length : ∀ (Cs : List (ND K)) (i : List ℕ) (r : ℕ), i.length ≠ Cs.length →
    cpProd Cs i r = 0
  | [], [], _, h => absurd rfl h
  | [], _ :: _, _, _ => rfl
  | _ :: _, [], _, _ => rfl
  | C :: Cs, i :: is, r, h => by
    rw [cpProd, cpProd_length Cs is r (by simpa using h), mul_zero]

theorem cpProd_append : ∀ (As Bs : List (ND K)) (p q : List ℕ) (r : ℕ), p.length = As.length →
    cpProd (As ++ Bs) (p ++ q) r = cpProd As p r * cpProd Bs q r
  | [], _, [], _, _, _ => by simp [cpProd]
  | C :: As, Bs, i :: p, q, r, h => by
    simp only [List.cons_append, cpProd]
    rw [cpProd_append As Bs p q r (by simpa using h), mul_assoc]
  | [], _, _ :: _, _, _, h => by simp at h
  | _ :: _, _, [], _, _, h => by simp at h

theorem cpProd_reverse : ∀ (As : List (ND K)) (p : List ℕ) (r : ℕ), 
    cpProd As.reverse p.reverse r = cpProd As p r
  | [], [], _ => rfl
  | [], _ :: _, _ => by rw [cpProd_length _ _ _ (by simp), cpProd_length _ _ _ (by simp)]
  | _ :: _, [], _ => by rw [cpProd_length _ _ _ (by simp), cpProd_length _ _ _ (by simp)]
  | C :: As, i :: p, r => by
    by_cases h : p.length = As.length
    · simp only [List.reverse_cons]
      rw [cpProd_append _ _ _ _ _ (by simpa using h), cpProd_reverse]
      simp [cpProd, mul_comm]
    · rw [cpProd_length _ _ _ (by simpa using h), cpProd_length _ _ _ (by simpa using h)]

/-- all factors are matrices with `r` columns -/
def CPChain (r : ℕ) (Cs : List (ND K)) : Prop := ∀ C ∈ Cs, ∃ n, C.shape = [n, r]

def facShape (Cs : List (ND K)) : List ℕ := Cs.map fun C => C.dim 0

theorem cpProd_oob : ∀ {Cs : List (ND K)} {r : ℕ}, CPChain r Cs → ∀ {i : List ℕ} (k : ℕ),
    ¬ InR (facShape Cs) i → cpProd Cs i k = 0
  | [], _, _, [], _, h => absurd trivial h
  | [], _, _, _ :: _, _, _ => rfl
  | _ :: _, _, _, [], _, _ => rfl
  | C :: Cs, r, hc, i :: is, k, h => by
    obtain ⟨n, hC⟩ := hc C (by simp)
    rw [cpProd]
    by_cases hi : i < n
    · have : ¬ InR (facShape Cs) is := by
        intro h2; apply h
        show i < C.dim 0 ∧ _
        exact ⟨by simpa [ND.dim, hC] using hi, h2⟩
      rw [cpProd_oob (fun C hC => hc C (by simp [hC])) k this, mul_zero]
    · rw [ND.oob2 hC (by tauto), zero_mul]

theorem foldl_ej_ij : ∀ (Cs : List (ND K)) {A : ND K} {s : List ℕ} {r : ℕ},
    A.shape = s ++ [r] → CPChain r Cs →
    (Cs.foldl ND.es_ej_ij A).shape = s ++ facShape Cs ++ [r] ∧
    ∀ (p q : List ℕ) (k : ℕ), p.length = s.length → q.length = Cs.length →
      (Cs.foldl ND.es_ej_ij A).get (p ++ q ++ [k]) = A.get (p ++ [k]) * cpProd Cs q k
  | [], A, s, r, hA, _ => by
    refine ⟨by simp [facShape, hA], fun p q k hp hq => ?_⟩
    have : q = [] := by simpa using hq
    subst this
    simp [cpProd]
  | C :: Cs, A, s, r, hA, hc => by
    obtain ⟨n, hC⟩ := hc C (by simp)
    have hA' : (ND.es_ej_ij A C).shape = (s ++ [n]) ++ [r] := by
      rw [ND.es_ej_ij_shape hA hC]; simp
    obtain ⟨h1, h2⟩ := foldl_ej_ij Cs hA' (fun C hC => hc C (by simp [hC]))
    refine ⟨?_, ?_⟩
    · rw [List.foldl_cons, h1]
      simp [facShape, ND.dim, hC]
    · intro p q k hp hq
      match q, hq with
      | i :: q, hq =>
        rw [List.foldl_cons]
        have := h2 (p ++ [i]) q k (by simp [hp]) (by simpa using hq)
        rw [show p ++ i :: q ++ [k] = p ++ [i] ++ q ++ [k] by simp, this]
        have e : (ND.es_ej_ij A C).get (p ++ [i] ++ [k]) = A.get (p ++ [k]) * C.get [i, k] := by
          rw [← ND.es_ej_ij_get hA hC p hp i k]; simp
        rw [e, cpProd, mul_assoc]

theorem ND.sumLast_get {A : ND K} {s : List ℕ} {r : ℕ} (hA : A.shape = s ++ [r]) {i : List ℕ}
    (hi : InR s i) : A.sumLast.get i = ∑ t ∈ range r, A.get (i ++ [t]) := by
  have e : A.shape.dropLast = s := by simp [hA]
  refine (ND.ofFn_get (by rwa [e])).trans ?_
  simp [hA, List.getLastD_eq_getLast?]

theorem CP.toNumpy_shape {X : CP K} (h : X.Valid) : X.toNumpy.shape = X.shape := by
  obtain ⟨hne, hch⟩ := h
  obtain ⟨cores⟩ := X
  match cores, hne, hch with
  | C :: Cs, _, hc =>
    obtain ⟨n, hC⟩ := hc C (by simp)
    obtain ⟨h1, _⟩ := foldl_ej_ij Cs (s := [n]) (by simpa using hC)
      (fun C hC => hc C (by simp [hC]))
    simp only [toNumpy, shape, ND.sumLast, ND.ofFn_shape]
    rw [h1, List.dropLast_concat]
    simp [facShape, ND.dim, hC]

theorem CP.toNumpy_get {X : CP K} (h : X.Valid) (idx : List ℕ) :
    X.toNumpy.get idx = cpEntry X idx := by
  by_cases hin : InR X.shape idx
  · obtain ⟨hne, hch⟩ := h
    obtain ⟨cores⟩ := X
    match cores, hne, hch with
    | C :: Cs, _, hc =>
      match idx, hin with
      | i :: is, hin =>
        obtain ⟨n, hC⟩ := hc C (by simp)
        obtain ⟨h1, h2⟩ := foldl_ej_ij Cs (s := [n]) (by simpa using hC)
          (fun C hC => hc C (by simp [hC]))
        simp only [toNumpy, cpEntry]
        rw [ND.sumLast_get h1]
        · refine sum_congr rfl fun x _ => ?_
          have := h2 [i] is x rfl (by simpa [CP.shape] using hin.length)
          simp only [List.cons_append, List.nil_append] at this ⊢
          rw [this, cpProd]
        · simpa [shape, facShape, ND.dim, hC] using hin
  · rw [ND.supp _ _ (by rw [CP.toNumpy_shape h]; exact hin), cpEntry]
    symm
    exact sum_eq_zero fun r _ => cpProd_oob h.2 r hin

end

end TTS
