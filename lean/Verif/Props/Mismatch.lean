import Verif.Model.Mismatch
import Verif.Spec.Mismatch
import Verif.Props.GatherInt
import Verif.Props.Norm

/-!
# C91: operands of different shapes
-/

namespace TTS.Props

open TTS Finset

variable {K : Type*}

/-! ### `TensorTrain.add` -/

theorem concatOk_iff [Zero K] {A B : ND K} {a b c a' b' c' : ℕ} (hA : A.shape = [a, b, c]) (hB : B.shape = [a', b', c'])
    (ax : ℕ) : concatOk ax A B = true ↔ (ax = 0 ∨ a = a') ∧ (ax = 1 ∨ b = b') ∧ (ax = 2 ∨ c = c') := by
  have d0 : A.dim 0 = a ∧ A.dim 1 = b ∧ A.dim 2 = c := by simp [ND.dim, hA]
  have d1 : B.dim 0 = a' ∧ B.dim 1 = b' ∧ B.dim 2 = c' := by simp [ND.dim, hB]
  unfold concatOk
  rw [show List.range 3 = [0, 1, 2] from rfl]
  simp only [List.all_cons, List.all_nil, Bool.and_true, Bool.and_eq_true, decide_eq_true_eq, d0, d1]
  omega

theorem chain_shape [Zero K] : ∀ {Cs : List (ND K)} {r s : ℕ}, TTChain r Cs s → ∀ C ∈ Cs, ∃ a n b, C.shape = [a, n, b]
  | [], _, _, _, _, h => absurd h List.not_mem_nil
  | _ :: _, r, _, ⟨n, t, hC, h⟩, D, hD => by
    rcases List.mem_cons.1 hD with rfl | hD
    · exact ⟨r, n, t, hC⟩
    · exact chain_shape h D hD

theorem chain_last [Zero K] : ∀ {Cs : List (ND K)} {r s : ℕ}, Cs ≠ [] → TTChain r Cs s →
    ∃ a n, (Cs.getLastD (ND.zeros [])).shape = [a, n, s]
  | [C], r, s, _, ⟨n, t, hC, h⟩ => ⟨r, n, by rw [List.getLastD_cons, List.getLastD_nil, hC, show t = s from h]⟩
  | _ :: D :: Cs, _, _, _, ⟨_, t, _, h⟩ => by
    obtain ⟨a, n, e⟩ := chain_last (Cs := D :: Cs) (by simp) h
    exact ⟨a, n, by simpa using e⟩

/-- **C91, `add`.** `add` of two tensor trains, whatever their numbers of modes, raises `ValueError` unless the first modes,
the last modes and the modes between them (counted from the first one, as long as both have one) have equal sizes. -/
theorem C91_add [Zero K] (X Y : TT K) (hX : X.Valid) (hY : Y.Valid) :
    X.addE Y = if X.shape.head? = Y.shape.head? ∧ X.shape.getLast? = Y.shape.getLast? ∧
        ∀ p ∈ X.shape.tail.dropLast.zip Y.shape.tail.dropLast, p.1 = p.2
      then .ok (X.add Y) else .error .valueError := by
  obtain ⟨As⟩ := X
  obtain ⟨Bs⟩ := Y
  obtain ⟨x1, x2⟩ := hX
  obtain ⟨y1, y2⟩ := hY
  obtain ⟨la, ln, hla⟩ := chain_last x1 x2
  obtain ⟨lb, lm, hlb⟩ := chain_last y1 y2
  match As, Bs, x1, y1, x2, y2 with
  | C :: Cs, D :: Ds, _, _, ⟨n, t, hC, hCs⟩, ⟨m, u, hD, hDs⟩ =>
    have e1 : (⟨C :: Cs⟩ : TT K).shape.getLast? = some ln := by
      simp only [TT.shape, List.getLast?_map]
      rw [List.getLastD_eq_getLast?] at hla
      cases h : (C :: Cs).getLast? with
      | none => simp at h
      | some L => rw [h] at hla; simp only [Option.getD_some] at hla; simp [ND.dim, hla]
    have e2 : (⟨D :: Ds⟩ : TT K).shape.getLast? = some lm := by
      simp only [TT.shape, List.getLast?_map]
      rw [List.getLastD_eq_getLast?] at hlb
      cases h : (D :: Ds).getLast? with
      | none => simp at h
      | some L => rw [h] at hlb; simp only [Option.getD_some] at hlb; simp [ND.dim, hlb]
    unfold TT.addE
    simp only []
    congr 1
    rw [e1, e2, eq_iff_iff, Bool.and_eq_true, Bool.and_eq_true, concatOk_iff hC hD, concatOk_iff hla hlb, List.all_eq_true]
    have h3 : (∀ p ∈ Cs.dropLast.zip Ds.dropLast,
        (concatOk 2 p.1 (ND.zeros [p.1.dim 0, p.1.dim 1, p.2.dim 2])
          && concatOk 2 (ND.zeros [p.2.dim 0, p.1.dim 1, p.1.dim 2]) p.2
          && concatOk 0 (ND.concat2 p.1 (ND.zeros [p.1.dim 0, p.1.dim 1, p.2.dim 2]))
            (ND.concat2 (ND.zeros [p.2.dim 0, p.1.dim 1, p.1.dim 2]) p.2)) = true)
        ↔ ∀ p ∈ (⟨C :: Cs⟩ : TT K).shape.tail.dropLast.zip (⟨D :: Ds⟩ : TT K).shape.tail.dropLast, p.1 = p.2 := by
      simp only [TT.shape, List.map_cons, List.tail_cons, ← List.map_dropLast, List.zip_map, List.mem_map, Prod.map]
      constructor
      · rintro h q ⟨p, hp, rfl⟩
        obtain ⟨a, n, b, h1⟩ := chain_shape hCs p.1 (List.mem_of_mem_dropLast (List.of_mem_zip hp).1)
        obtain ⟨a', n', b', h2⟩ := chain_shape hDs p.2 (List.mem_of_mem_dropLast (List.of_mem_zip hp).2)
        have := h p hp
        simp only [Bool.and_eq_true] at this
        have h3 := (concatOk_iff rfl h2 2).1 this.1.2
        have : p.1.dim 1 = n' := by simpa using h3.2.1
        rw [this]
        simp [ND.dim, h2]
      · intro h p hp
        obtain ⟨a, n, b, h1⟩ := chain_shape hCs p.1 (List.mem_of_mem_dropLast (List.of_mem_zip hp).1)
        obtain ⟨a', n', b', h2⟩ := chain_shape hDs p.2 (List.mem_of_mem_dropLast (List.of_mem_zip hp).2)
        have he : p.1.dim 1 = p.2.dim 1 := h _ ⟨p, hp, rfl⟩
        have d1 : p.1.dim 0 = a ∧ p.1.dim 1 = n ∧ p.1.dim 2 = b := by simp [ND.dim, h1]
        have d2 : p.2.dim 0 = a' ∧ p.2.dim 1 = n' ∧ p.2.dim 2 = b' := by simp [ND.dim, h2]
        simp only [Bool.and_eq_true]
        obtain ⟨rfl, rfl, rfl⟩ := d1
        obtain ⟨rfl, rfl, rfl⟩ := d2
        have s1 : (ND.concat2 p.1 (ND.zeros [p.1.dim 0, p.1.dim 1, p.2.dim 2])).shape
            = [p.1.dim 0, p.1.dim 1, p.1.dim 2 + p.2.dim 2] := by simp [ND.concat2, ND.dim, ND.zeros]
        have s2 : (ND.concat2 (ND.zeros [p.2.dim 0, p.1.dim 1, p.1.dim 2]) p.2).shape
            = [p.2.dim 0, p.1.dim 1, p.1.dim 2 + p.2.dim 2] := by simp [ND.concat2, ND.dim, ND.zeros]
        refine ⟨⟨(concatOk_iff h1 rfl 2).2 ?_, (concatOk_iff rfl h2 2).2 ?_⟩, (concatOk_iff s1 s2 0).2 ?_⟩
        · simp
        · simp [he]
        · simp
    rw [h3]
    simp [TT.shape, ND.dim, hC, hD]
    tauto

/-- With the same number of modes `add` raises `ValueError` exactly for different shapes. -/
theorem C91_add_same [Zero K] (X Y : TT K) (hX : X.Valid) (hY : Y.Valid) (hl : X.shape.length = Y.shape.length) :
    X.addE Y = if X.shape = Y.shape then .ok (X.add Y) else .error .valueError := by
  rw [C91_add X Y hX hY]
  congr 1
  have hX0 : X.shape ≠ [] := by simpa [TT.shape] using hX.1
  generalize X.shape = s at *
  generalize Y.shape = t at *
  rw [eq_iff_iff]
  constructor
  · rintro ⟨h1, h2, h3⟩
    match s, t, hl, hX0 with
    | [a], [b], _, _ => simpa using h1
    | a :: a' :: s, b :: b' :: t, hl, _ =>
      simp only [List.head?_cons, Option.some.injEq] at h1
      simp only [List.tail_cons] at h3
      rw [List.getLast?_cons_cons, List.getLast?_cons_cons] at h2
      have e1 := List.dropLast_append_getLast? _ (Option.get_mem (o := (a' :: s).getLast?) (by simp))
      have e2 := List.dropLast_append_getLast? _ (Option.get_mem (o := (b' :: t).getLast?) (by simp))
      have h4 : (a' :: s).dropLast = (b' :: t).dropLast := by
        have hl' : (a' :: s).dropLast.length = (b' :: t).dropLast.length := by simp at hl ⊢; omega
        generalize (a' :: s).dropLast = u at *
        generalize (b' :: t).dropLast = v at *
        refine List.ext_getElem hl' fun i p q => ?_
        refine h3 (u[i], v[i]) ?_
        rw [← List.getElem_zip (h := by simp; omega)]
        exact List.getElem_mem _
      rw [h1, ← e1, ← e2, h4]
      simp only [h2]
  · rintro rfl
    refine ⟨rfl, rfl, fun p hp => ?_⟩
    obtain ⟨i, hi, rfl⟩ := List.getElem_of_mem hp
    simp

/-- Tensor trains with different numbers of modes are not always rejected: the surplus modes between the first and the last
one are dropped, and the result need not be a tensor train. -/
theorem C91_add_orders : let X : TT ℚ := ⟨[ND.ofFn [1, 2, 1] fun _ => 1, ND.ofFn [1, 2, 1] fun _ => 1]⟩
    let Y : TT ℚ := ⟨[ND.ofFn [1, 2, 2] fun _ => 1, ND.ofFn [2, 5, 3] fun _ => 1, ND.ofFn [3, 2, 1] fun _ => 1]⟩
    X.Valid ∧ Y.Valid ∧ X.shape = [2, 2] ∧ Y.shape = [2, 5, 2] ∧ X.addE Y = .ok (X.add Y) ∧
      (X.add Y).shape = [2, 2] ∧ ¬ (X.add Y).Valid := by
  intro X Y
  have hX : X.Valid := ⟨by simp [X], 2, 1, rfl, 2, 1, rfl, rfl⟩
  have hY : Y.Valid := ⟨by simp [Y], 2, 2, rfl, 5, 3, rfl, 2, 1, rfl, rfl⟩
  refine ⟨hX, hY, rfl, rfl, ?_, rfl, ?_⟩
  · rw [C91_add X Y hX hY, if_pos]
    exact ⟨rfl, rfl, fun p hp => by simp [X, Y, TT.shape] at hp⟩
  · rintro ⟨-, n, t, h1, n', t', h2, -⟩
    have e1 : (1 : ℕ) = 1 ∧ 2 = n ∧ 3 = t := by
      have : [1, 2, 3] = [1, n, t] := h1
      simpa using this
    have e2 : [4, 2, 1] = [t, n', t'] := h2
    simp only [List.cons.injEq] at e2
    omega

/-! ### Inner products -/

theorem clip_self : ∀ {s i : List ℕ}, InR s i → clip s i = i
  | [], [], _ => rfl
  | n :: s, k :: i, h => by
    have h1 : k < n := h.1
    show (if n = 1 then 0 else k) :: clip s i = _
    rw [clip_self h.2]
    congr 1
    split <;> omega

theorem stretch_self [Zero K] (A : ND K) : A.stretch A.shape = A :=
  ND.ext' rfl fun i hi => by
    have hi' : InR A.shape i := hi
    unfold ND.stretch
    rw [ND.ofFn_get hi']
    exact congrArg A.get (clip_self hi')

theorem bdim_self (n : ℕ) : bdim n n = some n := if_pos (.inl rfl)

theorem bdim_some {n m N : ℕ} : bdim n m = some N ↔ (n = m ∨ n = 1 ∨ m = 1) ∧ N = if n = 1 then m else n := by
  unfold bdim
  split_ifs <;> simp <;> omega

/-- A core stretched in its mode. -/
def stretchMode [Zero K] (C : ND K) (N : ℕ) : ND K := C.stretch [C.dim 0, N, C.dim 2]

theorem stretchMode_get [Zero K] {C : ND K} {r n s N a j b : ℕ} (hC : C.shape = [r, n, s]) (hN : n = N ∨ n = 1)
    (hj : j < N) : (stretchMode C N).get [a, j, b] = C.get [a, if n = 1 then 0 else j, b] := by
  obtain ⟨d0, d1, d2⟩ : C.dim 0 = r ∧ C.dim 1 = n ∧ C.dim 2 = s := by simp [ND.dim, hC]
  unfold stretchMode ND.stretch
  rw [ND.ofFn_get', d0, d2, hC]
  by_cases h : a < r ∧ b < s
  · rw [if_pos (show InR [r, N, s] [a, j, b] from ⟨h.1, hj, h.2, trivial⟩)]
    show C.get [if r = 1 then 0 else a, if n = 1 then 0 else j, if s = 1 then 0 else b] = _
    have ha : (if r = 1 then 0 else a) = a := by split <;> omega
    have hb : (if s = 1 then 0 else b) = b := by split <;> omega
    rw [ha, hb]
  · rw [if_neg (fun h' => h ⟨h'.1, h'.2.2.1⟩), ND.oob3 hC (fun h' => h ⟨h'.1, h'.2.2⟩)]

theorem stretch_chain [Zero K] : ∀ {Cs : List (ND K)} {Ns : List ℕ} {r s : ℕ}, TTChain r Cs s → Cs.length = Ns.length →
    TTChain r (List.zipWith stretchMode Cs Ns) s
  | [], [], _, _, h, _ => h
  | C :: Cs, N :: Ns, r, s, ⟨n, t, hC, h⟩, hl =>
    ⟨N, t, by simp [stretchMode, ND.stretch, ND.dim, hC, ND.ofFn], stretch_chain h (by simpa using hl)⟩

theorem stretch_val [CommSemiring K] : ∀ {Cs : List (ND K)} {Ns : List ℕ} {r s : ℕ}, TTChain r Cs s →
    List.Forall₂ (fun n N => n = N ∨ n = 1) (Cs.map fun C => C.dim 1) Ns → ∀ {i : List ℕ}, InR Ns i → ∀ a b,
    ttVal (List.zipWith stretchMode Cs Ns) i a b = ttVal Cs (clip (Cs.map fun C => C.dim 1) i) a b
  | [], [], _, _, _, _, [], _, _, _ => rfl
  | C :: Cs, N :: Ns, r, s, ⟨n, t, hC, h⟩, .cons h1 h2, j :: i, hi, a, b => by
    have d2 : (stretchMode C N).dim 2 = C.dim 2 := rfl
    have d1 : C.dim 1 = n := by simp [ND.dim, hC]
    show ∑ x ∈ range ((stretchMode C N).dim 2), (stretchMode C N).get [a, j, x] * ttVal _ i x b = _
    rw [d2]
    show _ = ∑ x ∈ range (C.dim 2), C.get [a, if C.dim 1 = 1 then 0 else j, x] * ttVal _ _ x b
    refine sum_congr rfl fun x _ => ?_
    rw [stretchMode_get hC (by rw [← d1]; exact h1) hi.1, d1]
    congr 1
    exact stretch_val h h2 hi.2 x b

/-- Broadcasting of a tensor train: its cores are stretched. -/
theorem stretch_tt [CommSemiring K] {X : TT K} (hX : X.Valid) {sh : List ℕ}
    (h : List.Forall₂ (fun n N => n = N ∨ n = 1) X.shape sh) :
    (⟨List.zipWith stretchMode X.cores sh⟩ : TT K).Valid ∧ (⟨List.zipWith stretchMode X.cores sh⟩ : TT K).shape = sh ∧
      ∀ i, InR sh i → (⟨List.zipWith stretchMode X.cores sh⟩ : TT K).toNumpy.get i = X.toNumpy.get (clip X.shape i) := by
  have hl : X.cores.length = sh.length := by rw [← h.length_eq]; simp [TT.shape]
  have hv : (⟨List.zipWith stretchMode X.cores sh⟩ : TT K).Valid := by
    refine ⟨?_, stretch_chain hX.2 hl⟩
    intro h0
    have := congrArg List.length h0
    rw [List.length_zipWith, ← hl] at this
    exact hX.1 (List.length_eq_zero_iff.1 (by simpa using this))
  refine ⟨hv, ?_, fun i hi => ?_⟩
  · have : ∀ (Cs : List (ND K)) (Ns : List ℕ), Cs.length = Ns.length →
        (List.zipWith stretchMode Cs Ns).map (fun C => C.dim 1) = Ns := by
      intro Cs Ns h
      rw [List.map_zipWith]
      refine List.ext_getElem (by simp [h]) fun i h1 h2 => ?_
      rw [List.getElem_zipWith]; rfl
    exact this _ _ hl
  · rw [TT.toNumpy_get hv, TT.toNumpy_get hX]
    exact stretch_val hX.2 h hi 0 0

theorem common_left : ∀ {s t : List ℕ}, Compatible s t → List.Forall₂ (fun n N => n = N ∨ n = 1) s (common s t)
  | [], [], _ => .nil
  | n :: s, m :: t, .cons _ h => .cons (by by_cases h1 : n = 1 <;> simp [h1]) (common_left h)

theorem common_right : ∀ {s t : List ℕ}, Compatible s t → List.Forall₂ (fun n N => n = N ∨ n = 1) t (common s t)
  | [], [], _ => .nil
  | n :: s, m :: t, .cons h' h => .cons (by
      by_cases h1 : n = 1
      · simp [h1]
      · show m = (if n = 1 then m else n) ∨ m = 1
        rw [if_neg h1]; omega) (common_right h)

theorem dotFold_ok [CommSemiring K] : ∀ {Cs Ds : List (ND K)} {r s r' s' : ℕ} (R : ND K), TTChain r Cs r' → TTChain s Ds s' →
    R.shape = [r, s] → Compatible (Cs.map fun C => C.dim 1) (Ds.map fun C => C.dim 1) →
    (Cs.zip Ds).foldlM dotStepE R = .ok (((List.zipWith stretchMode Cs (common (Cs.map fun C => C.dim 1) (Ds.map fun C => C.dim 1))).zip
      (List.zipWith stretchMode Ds (common (Cs.map fun C => C.dim 1) (Ds.map fun C => C.dim 1)))).foldl
        (fun R p => ND.es_ij_ika_jkb_ab R p.1 p.2) R)
  | [], [], _, _, _, _, R, _, _, _, _ => rfl
  | C :: Cs, D :: Ds, r, s, _, _, R, ⟨n, t, hC, h⟩, ⟨m, u, hD, h'⟩, hR, .cons hc hcs => by
    obtain ⟨c0, c1, c2⟩ : C.dim 0 = r ∧ C.dim 1 = n ∧ C.dim 2 = t := by simp [ND.dim, hC]
    obtain ⟨d0, d1, d2⟩ : D.dim 0 = s ∧ D.dim 1 = m ∧ D.dim 2 = u := by simp [ND.dim, hD]
    obtain ⟨r0, r1⟩ : R.dim 0 = r ∧ R.dim 1 = s := by simp [ND.dim, hR]
    have hb : bdim (C.dim 1) (D.dim 1) = some (if C.dim 1 = 1 then D.dim 1 else C.dim 1) := bdim_some.2 ⟨hc, rfl⟩
    have e : dotStepE R (C, D) = .ok (ND.es_ij_ika_jkb_ab R (stretchMode C (if C.dim 1 = 1 then D.dim 1 else C.dim 1))
        (stretchMode D (if C.dim 1 = 1 then D.dim 1 else C.dim 1))) := by
      unfold dotStepE
      simp only [hb]
      rw [r0, r1, c0, d0, bdim_self, bdim_self]
      show Except.ok (ND.es_ij_ika_jkb_ab (R.stretch [r, s]) _ _) = _
      rw [← hR, stretch_self]
      simp only [stretchMode, c0, d0]
    rw [List.zip_cons_cons, List.foldlM_cons, e]
    show (Cs.zip Ds).foldlM dotStepE _ = _
    rw [dotFold_ok _ h h' ?_ hcs]
    · rfl
    · have s1 : (stretchMode C (if C.dim 1 = 1 then D.dim 1 else C.dim 1)).shape = [C.dim 0, _, C.dim 2] := rfl
      have s2 : (stretchMode D (if C.dim 1 = 1 then D.dim 1 else C.dim 1)).shape = [D.dim 0, _, D.dim 2] := rfl
      rw [ND.es_ij_ika_jkb_ab_shape hR s1 s2, c2, d2]

theorem dotFold_err [CommSemiring K] : ∀ {Cs Ds : List (ND K)} (R : ND K), Cs.length = Ds.length →
    ¬ Compatible (Cs.map fun C => C.dim 1) (Ds.map fun C => C.dim 1) →
    (Cs.zip Ds).foldlM dotStepE R = .error .valueError
  | [], [], _, _, h => absurd .nil h
  | C :: Cs, D :: Ds, R, hl, h => by
    rw [List.zip_cons_cons, List.foldlM_cons]
    by_cases hc : C.dim 1 = D.dim 1 ∨ C.dim 1 = 1 ∨ D.dim 1 = 1
    · have h' : ¬ Compatible (Cs.map fun C => C.dim 1) (Ds.map fun C => C.dim 1) := fun h'' => h (.cons hc h'')
      cases hd : dotStepE R (C, D) with
      | ok R' => exact dotFold_err R' (by simpa using hl) h'
      | error e =>
        unfold dotStepE at hd
        split at hd
        · cases hd
        · cases hd; rfl
    · have hb : bdim (C.dim 1) (D.dim 1) = none := by
        cases h2 : bdim (C.dim 1) (D.dim 1) with
        | none => rfl
        | some N => exact absurd (bdim_some.1 h2).1 hc
      have : dotStepE R (C, D) = .error .valueError := by
        unfold dotStepE
        simp only [hb]
        split <;> simp_all
      rw [this]; rfl

/-- **C91, two tensor trains with the same number of modes.** `dot` is `np.sum(X.to_numpy() * Y.to_numpy())` with numpy's
broadcasting: modes of size 1 are repeated; it raises `ValueError` if there is a mode where the sizes differ and neither is 1. -/
theorem C91_dot_tt [CommSemiring K] (X Y : TT K) (hX : X.Valid) (hY : Y.Valid) (hl : X.shape.length = Y.shape.length) :
    (Compatible X.shape Y.shape → X.dotE Y = .ok (sumIdx (common X.shape Y.shape) fun i =>
      X.toNumpy.get (clip X.shape i) * Y.toNumpy.get (clip Y.shape i))) ∧
    (¬ Compatible X.shape Y.shape → X.dotE Y = .error .valueError) := by
  constructor
  · intro h
    obtain ⟨x1, x2, x3⟩ := stretch_tt hX (common_left h)
    obtain ⟨y1, y2, y3⟩ := stretch_tt hY (common_right h)
    have hd := TT.dot_eq x1 y1 (x2.trans y2.symm)
    have hi : innerND (⟨List.zipWith stretchMode X.cores (common X.shape Y.shape)⟩ : TT K).toNumpy
        (⟨List.zipWith stretchMode Y.cores (common X.shape Y.shape)⟩ : TT K).toNumpy
        = sumIdx (common X.shape Y.shape) fun i => X.toNumpy.get (clip X.shape i) * Y.toNumpy.get (clip Y.shape i) := by
      unfold innerND
      rw [TT.toNumpy_shape x1, x2]
      exact sumIdx_congr fun i hi => by rw [x3 i hi, y3 i hi]
    rw [← hi, ← hd]
    obtain ⟨As⟩ := X
    obtain ⟨Bs⟩ := Y
    match As, Bs, hX.1, hY.1, hX.2, hY.2, h with
    | C :: Cs, D :: Ds, _, _, ⟨n, t, hC, hCs⟩, ⟨m, u, hD, hDs⟩, .cons hc hcs =>
      have hb : bdim (C.dim 1) (D.dim 1) = some (if C.dim 1 = 1 then D.dim 1 else C.dim 1) := bdim_some.2 ⟨hc, rfl⟩
      have e : dotInitE C D = .ok (ND.es_ijk_ljm_km (stretchMode C (if C.dim 1 = 1 then D.dim 1 else C.dim 1))
          (stretchMode D (if C.dim 1 = 1 then D.dim 1 else C.dim 1))) := by
        unfold dotInitE
        simp only [hb]
        rfl
      unfold TT.dotE
      simp only []
      rw [e]
      show (List.foldlM dotStepE _ (Cs.zip Ds) >>= fun R => pure R.total) = _
      have c2 : C.dim 2 = t := by simp [ND.dim, hC]
      have d2 : D.dim 2 = u := by simp [ND.dim, hD]
      have s1 : (stretchMode C (if C.dim 1 = 1 then D.dim 1 else C.dim 1)).shape = [C.dim 0, _, C.dim 2] := rfl
      have s2 : (stretchMode D (if C.dim 1 = 1 then D.dim 1 else C.dim 1)).shape = [D.dim 0, _, D.dim 2] := rfl
      rw [dotFold_ok _ hCs hDs (by rw [ND.es_ijk_ljm_km_shape s1 s2, c2, d2]) hcs]
      rfl
  · intro h
    obtain ⟨As⟩ := X
    obtain ⟨Bs⟩ := Y
    match As, Bs, hX.1, hY.1, h with
    | C :: Cs, D :: Ds, _, _, h =>
      unfold TT.dotE
      simp only []
      by_cases hc : C.dim 1 = D.dim 1 ∨ C.dim 1 = 1 ∨ D.dim 1 = 1
      · have h' : ¬ Compatible (Cs.map fun C => C.dim 1) (Ds.map fun C => C.dim 1) := fun h'' => h (.cons hc h'')
        have hl' : Cs.length = Ds.length := by simpa [TT.shape] using hl
        cases hd : dotInitE C D with
        | ok R =>
          show (List.foldlM dotStepE R (Cs.zip Ds) >>= fun R => pure R.total) = _
          rw [dotFold_err R hl' h']
          rfl
        | error e =>
          unfold dotInitE at hd
          split at hd
          · cases hd
          · cases hd; rfl
      · have hb : bdim (C.dim 1) (D.dim 1) = none := by
          cases h2 : bdim (C.dim 1) (D.dim 1) with
          | none => rfl
          | some N => exact absurd (bdim_some.1 h2).1 hc
        unfold dotInitE
        simp only [hb]
        rfl

/-- Surplus modes of the longer one of two tensor trains are cut off: the product is formed with its first cores, the last
bond being summed over. -/
theorem C91_dot_orders [CommSemiring K] (X Y : TT K) :
    X.dotE Y = (⟨X.cores.take Y.shape.length⟩ : TT K).dotE ⟨Y.cores.take X.shape.length⟩ := by
  obtain ⟨As⟩ := X
  obtain ⟨Bs⟩ := Y
  match As, Bs with
  | [], _ => simp [TT.dotE]
  | _ :: _, [] => simp [TT.dotE]
  | C :: Cs, D :: Ds =>
    have : Cs.zip Ds = (Cs.take Ds.length).zip (Ds.take Cs.length) := by
      refine List.ext_getElem (by simp [Nat.min_comm]) fun i h1 h2 => ?_
      rw [List.getElem_zip, List.getElem_zip, List.getElem_take, List.getElem_take]
    simp only [TT.dotE, TT.shape, List.length_map, List.length_cons, List.take_succ_cons, ← this]

/-- Pairs of formats whose inner product is that of the flattened arrays. -/
def FlatPair [Zero K] : Leaf K → Leaf K → Prop
  | .sparse _, .sparse _ | .sparse _, .tt _ | .sparse _, .cp _ | .tt _, .sparse _ | .cp _, .sparse _ | .tt _, .tt _ => False
  | _, _ => True

theorem denseDot_flat [CommSemiring K] {X Y : Leaf K} (hX : X.Valid) (hY : Y.Valid) (h : X.shape.prod = Y.shape.prod) :
    X.denseDot Y = ∑ k ∈ range X.shape.prod, X.toNumpy.get (unravel X.shape k) * Y.toNumpy.get (unravel Y.shape k) := by
  unfold Leaf.denseDot
  have key : ∀ {Z : Leaf K}, Z.Valid → ∀ k < Z.shape.prod,
      (Z.toNumpy.reshape [Z.toNumpy.shape.prod]).get [k] = Z.toNumpy.get (unravel Z.shape k) := by
    intro Z hZ k hk
    have hi : InR Z.toNumpy.shape (unravel Z.shape k) := by rw [Leaf.toNumpy_shape hZ]; exact unravel_inR hk
    rw [← ND.reshape_flat hi, Leaf.toNumpy_shape hZ, ravel_unravel hk]
  rw [Leaf.toNumpy_shape hX]
  refine sum_congr rfl fun k hk => ?_
  have h1 := key hX k (mem_range.1 hk)
  rw [Leaf.toNumpy_shape hX] at h1
  rw [h1, key hY k (by rw [← h]; exact mem_range.1 hk)]

/-- **C91, other pairs of formats.** If dense or Tucker tensors take part, or two CP tensors, or a CP tensor and a tensor
train, `dot` is the inner product of the flattened arrays for all operands with the same number of entries, whatever their
shapes, and raises `ValueError` otherwise. -/
theorem C91_dot_flat [CommSemiring K] (X Y : Leaf K) (hX : X.Valid) (hY : Y.Valid) (h : FlatPair X Y) :
    X.dotE Y = if X.shape.prod = Y.shape.prod then
      .ok (∑ k ∈ range X.shape.prod, X.toNumpy.get (unravel X.shape k) * Y.toNumpy.get (unravel Y.shape k))
      else .error .valueError := by
  have hYX : Y.denseDotE X = if X.shape.prod = Y.shape.prod then
      .ok (∑ k ∈ range X.shape.prod, X.toNumpy.get (unravel X.shape k) * Y.toNumpy.get (unravel Y.shape k))
      else .error .valueError := by
    unfold Leaf.denseDotE
    rw [Leaf.toNumpy_shape hX, Leaf.toNumpy_shape hY]
    by_cases he : X.shape.prod = Y.shape.prod
    · rw [if_pos he.symm, if_pos he, denseDot_flat hY hX he.symm, ← he]
      exact congrArg _ (sum_congr rfl fun k _ => mul_comm _ _)
    · rw [if_neg (Ne.symm he), if_neg he]
  rw [← hYX]
  cases X <;> cases Y <;> first | rfl | exact h.elim

theorem selects_nat : ∀ {sh i j : List ℕ}, Selects sh (i.map fun (k : ℕ) => (k : ℤ)) j ↔ InR sh i ∧ j = i
  | [], [], [] => by simp [Selects]
  | [], [], _ :: _ => by simp [Selects]
  | [], _ :: _, j => by cases j <;> simp [Selects]
  | _ :: _, [], j => by cases j <;> simp [Selects]
  | _ :: _, _ :: _, [] => by simp [Selects]
  | n :: sh, k :: i, l :: j => by
    show (l < n ∧ ((k : ℤ) = l ∨ (k : ℤ) = (l : ℤ) - n) ∧ Selects sh (i.map fun (k : ℕ) => (k : ℤ)) j) ↔ (k < n ∧ InR sh i) ∧ _
    rw [selects_nat, List.cons.injEq]
    constructor
    · rintro ⟨h1, h2, h3, h4⟩
      have : l = k := by omega
      exact ⟨⟨by omega, h3⟩, this, h4⟩
    · rintro ⟨⟨h1, h2⟩, rfl, rfl⟩
      exact ⟨h1, .inl rfl, h2, rfl⟩

theorem isIndex_nat {sh i j : List ℕ} : IsIndex sh (i.map fun (k : ℕ) => (k : ℤ)) j ↔ InR sh i ∧ j = i := by
  constructor
  · rintro ⟨h1, h2⟩
    have : i = j := List.map_injective_iff.2 Nat.cast_injective h2
    exact ⟨this ▸ h1, this.symm⟩
  · rintro ⟨h1, rfl⟩
    exact ⟨h1, rfl⟩

theorem vdot_entries [CommSemiring K] (es : List (List ℕ × K)) (f : List ℕ → K) :
    Leaf.vdot ((es.map Prod.fst).map f) (es.map Prod.snd) = (es.map fun e => f e.1 * e.2).sum := by
  unfold Leaf.vdot
  rw [List.map_map]
  congr 1
  induction es with
  | nil => rfl
  | cons e es ih => simp [ih]

theorem gatherDot_ok [CommSemiring K] {S : Sparse K} {g : ℕ → List (List ℤ) → Except PyErr (List K)} {f : List ℕ → K}
    (h : g S.shape.length (S.entries.map fun e => e.1.map fun (k : ℕ) => (k : ℤ)) = .ok ((S.entries.map Prod.fst).map f)) :
    S.gatherDot g = .ok (S.entries.map fun e => f e.1 * e.2).sum := by
  unfold Sparse.gatherDot
  rw [h]
  show Except.ok (Leaf.vdot _ _) = _
  rw [vdot_entries]

theorem forall₂_map [Zero K] (S : Sparse K) {P : List ℤ → List ℕ → Prop}
    (h : ∀ e ∈ S.entries, P (e.1.map fun (k : ℕ) => (k : ℤ)) e.1) :
    List.Forall₂ P (S.entries.map fun e => e.1.map fun (k : ℕ) => (k : ℤ)) (S.entries.map Prod.fst) := by
  rw [List.forall₂_map_left_iff, List.forall₂_map_right_iff, List.forall₂_same]
  exact h

/-- **C91, a sparse tensor and a CP tensor with the same number of modes.** `dot` is the sum over the stored entries if their
indices exist in the CP tensor, and raises `IndexError` otherwise; that the shapes are equal is not checked. -/
theorem C91_dot_sparse_cp [CommRing K] (S : Sparse K) (Y : CP K) (hS : S.Valid) (hY : Y.Valid)
    (hl : S.shape.length = Y.shape.length) :
    (Leaf.sparse S).dotE (.cp Y) = (Leaf.cp Y).dotE (.sparse S) ∧
    ((∀ e ∈ S.entries, InR Y.shape e.1) →
      (Leaf.sparse S).dotE (.cp Y) = .ok (S.entries.map fun e => Y.toNumpy.get e.1 * e.2).sum) ∧
    ((∃ e ∈ S.entries, ¬ InR Y.shape e.1) → (Leaf.sparse S).dotE (.cp Y) = .error .indexError) := by
  have hc : ∀ c ∈ S.entries.map fun e => e.1.map fun (k : ℕ) => (k : ℤ), c.length = Y.shape.length := by
    intro c hc
    obtain ⟨e, he, rfl⟩ := List.mem_map.1 hc
    rw [List.length_map, (hS e he).length, hl]
  have h := C89_cp Y hY _ hc
  refine ⟨rfl, fun hi => ?_, fun ⟨e, he, hn⟩ => ?_⟩
  · refine gatherDot_ok (g := Y.gatherZ) ?_
    rw [hl]
    exact h.1 _ (forall₂_map S fun e he => selects_nat.2 ⟨hi e he, rfl⟩)
  · show (Y.gatherZ S.shape.length _).map _ = _
    rw [hl, h.2 ⟨_, List.mem_map.2 ⟨e, he, rfl⟩, fun i hi => hn (selects_nat.1 hi).1⟩]
    rfl

/-- **C91, two sparse tensors.** With the same number of modes and less than `2 ^ 63` entries, `S.dot(Y)` is the sum over the
entries stored in `S` if their indices exist in `Y`; in all other cases it raises `ValueError`. -/
theorem C91_dot_sparse [CommRing K] (S Y : Sparse K) (hS : S.Valid) (hY : Y.Valid) (hpos : ∀ n ∈ Y.shape, 0 < n) :
    (S.shape.length = Y.shape.length → Y.shape.prod < 2 ^ 63 → (∀ e ∈ S.entries, InR Y.shape e.1) →
      (Leaf.sparse S).dotE (.sparse Y) = .ok (S.entries.map fun e => Y.toNumpy.get e.1 * e.2).sum) ∧
    (S.shape.length ≠ Y.shape.length ∨ 2 ^ 63 ≤ Y.shape.prod ∨ (∃ e ∈ S.entries, ¬ InR Y.shape e.1) →
      (Leaf.sparse S).dotE (.sparse Y) = .error .valueError) := by
  have hc : ∀ c ∈ S.entries.map fun e => e.1.map fun (k : ℕ) => (k : ℤ), c.length = S.shape.length := by
    intro c hc
    obtain ⟨e, he, rfl⟩ := List.mem_map.1 hc
    rw [List.length_map, (hS e he).length]
  refine ⟨fun hl hb hi => ?_, fun h => ?_⟩
  · refine gatherDot_ok (g := Y.gatherZ) ?_
    rw [hl]
    exact C89_sparse Y hY hpos hb _ _ (forall₂_map S fun e he => isIndex_nat.2 ⟨hi e he, rfl⟩)
  · show (Y.gatherZ S.shape.length _).map _ = _
    rw [C89_sparse_reject Y _ _ hc]
    · rfl
    · rcases h with h | h | ⟨e, he, hn⟩
      · exact .inl h
      · exact .inr (.inl h)
      · exact .inr (.inr ⟨_, List.mem_map.2 ⟨e, he, rfl⟩, fun i hi => hn (isIndex_nat.1 hi).1⟩)

/-- **C91, a sparse tensor and a tensor train with the same number of modes.** Stored entries whose first index does not
exist in the tensor train raise `IndexError`; those with another index that does not exist count as zero. -/
theorem C91_dot_sparse_tt [CommRing K] (S : Sparse K) (Y : TT K) (hS : S.Valid) (hY : Y.Valid)
    (hl : S.shape.length = Y.shape.length) :
    (Leaf.sparse S).dotE (.tt Y) = (Leaf.tt Y).dotE (.sparse S) ∧
    ((∀ e ∈ S.entries, InR (Y.shape.take 1) (e.1.take 1)) →
      (Leaf.sparse S).dotE (.tt Y)
        = .ok (S.entries.map fun e => (if InR Y.shape e.1 then Y.toNumpy.get e.1 else 0) * e.2).sum) ∧
    ((∃ e ∈ S.entries, ¬ InR (Y.shape.take 1) (e.1.take 1)) → (Leaf.sparse S).dotE (.tt Y) = .error .indexError) := by
  have hc : ∀ c ∈ S.entries.map fun e => e.1.map fun (k : ℕ) => (k : ℤ), c.length = S.shape.length := by
    intro c hc
    obtain ⟨e, he, rfl⟩ := List.mem_map.1 hc
    rw [List.length_map, (hS e he).length]
  have h := C89_tt Y hY S.shape.length (by omega) _ hc
  have hsel : ∀ e ∈ S.entries, ∀ k, Selects (Y.shape.take 1) ((e.1.map fun (k : ℕ) => (k : ℤ)).take 1) [k]
      ↔ InR (Y.shape.take 1) (e.1.take 1) ∧ [k] = e.1.take 1 := by
    intro e _ k
    rw [← List.map_take, selects_nat]
  have hY0 : 0 < Y.shape.length := by
    simpa [TT.shape, List.length_pos_iff] using hY.1
  have hone : ∀ e ∈ S.entries, ∃ k l, e.1 = k :: l := by
    intro e he
    have := (hS e he).length
    match h : e.1 with
    | [] => rw [h] at this; simp at this; omega
    | k :: l => exact ⟨k, l, rfl⟩
  refine ⟨rfl, fun hi => ?_, fun ⟨e, he, hn⟩ => ?_⟩
  · obtain ⟨vs, h1, h2⟩ := h.1 fun c hc => by
      obtain ⟨e, he, rfl⟩ := List.mem_map.1 hc
      obtain ⟨k, l, hkl⟩ := hone e he
      exact ⟨k, (hsel e he k).2 ⟨hi e he, by rw [hkl]; rfl⟩⟩
    refine gatherDot_ok (g := Y.gatherZ) (f := fun i => if InR Y.shape i then Y.toNumpy.get i else 0) ?_
    rw [h1]
    congr 1
    rw [List.forall₂_map_left_iff] at h2
    have h3 : List.Forall₂ (fun e v => e ∈ S.entries → v = if InR Y.shape e.1 then Y.toNumpy.get e.1 else 0)
        S.entries vs := by
      refine h2.imp fun e v ⟨k, g1, g2, g3⟩ he => ?_
      obtain ⟨k', l, hkl⟩ := hone e he
      have hk := ((hsel e he k).1 g1)
      have hle : e.1.length = Y.shape.length := by rw [(hS e he).length, hl]
      have htk : ((e.1.map fun (k : ℕ) => (k : ℤ)).take Y.shape.length).drop 1 = l.map fun (k : ℕ) => (k : ℤ) := by
        rw [List.take_of_length_le (by rw [List.length_map]; omega), hkl]; rfl
      rw [htk] at g2 g3
      rw [hkl] at hk
      have hk' : k = k' := by simpa using hk.2
      subst hk'
      obtain ⟨n, sh, hns⟩ : ∃ n sh, Y.shape = n :: sh := by
        match hh : Y.shape with
        | [] => rw [hh] at hY0; simp at hY0
        | n :: sh => exact ⟨n, sh, rfl⟩
      have hkn : k < n := by
        have := hk.1
        rw [hns] at this
        exact this.1
      by_cases hr : InR Y.shape e.1
      · rw [if_pos hr, hkl]
        refine g2 l (isIndex_nat.2 ⟨?_, rfl⟩)
        rw [hkl, hns] at hr
        rw [hns]
        exact hr.2
      · rw [if_neg hr]
        refine g3 fun i hi => hr ?_
        have := (isIndex_nat.1 hi).1
        rw [hns] at this
        rw [hkl, hns]
        exact ⟨hkn, this⟩
    clear h2 h1
    have : ∀ (es : List (List ℕ × K)) (vs : List K),
        List.Forall₂ (fun e v => v = if InR Y.shape e.1 then Y.toNumpy.get e.1 else 0) es vs →
        vs = (es.map Prod.fst).map fun i => if InR Y.shape i then Y.toNumpy.get i else 0 := by
      intro es vs h
      induction h with
      | nil => rfl
      | cons h1 _ ih => rw [h1, ih]; rfl
    refine this _ _ ?_
    have hall : ∀ (es : List (List ℕ × K)) (vs : List K), (∀ e ∈ es, e ∈ S.entries) →
        List.Forall₂ (fun e v => e ∈ S.entries → v = if InR Y.shape e.1 then Y.toNumpy.get e.1 else 0) es vs →
        List.Forall₂ (fun e v => v = if InR Y.shape e.1 then Y.toNumpy.get e.1 else 0) es vs := by
      intro es vs hm h
      induction h with
      | nil => exact .nil
      | cons h1 _ ih => exact .cons (h1 (hm _ (by simp))) (ih fun e he => hm e (by simp [he]))
    exact hall _ _ (fun e he => he) h3
  · show (Y.gatherZ S.shape.length _).map _ = _
    rw [h.2 ⟨_, List.mem_map.2 ⟨e, he, rfl⟩, fun k hk => hn ((hsel e he k).1 hk).1⟩]
    rfl

/-! ### Lazy sums and errors -/

theorem bshape_same {s t : List ℕ} (hl : s.length = t.length) :
    (Compatible s t → bshape s t = some (common s t)) ∧ (¬ Compatible s t → bshape s t = none) := by
  have e : bshape s t = (s.zip t).mapM fun (p : ℕ × ℕ) => bdim p.1 p.2 := by
    unfold bshape
    simp [hl]
  rw [e]
  clear e
  have h1 : ∀ sh, ((s.zip t).mapM fun (p : ℕ × ℕ) => bdim p.1 p.2) = some sh ↔ Compatible s t ∧ sh = common s t := by
    intro sh
    rw [mapM_some]
    induction s generalizing t sh with
    | nil =>
      cases t with
      | nil => cases sh <;> simp [Compatible, common]
      | cons => simp at hl
    | cons n s ih =>
      cases t with
      | nil => simp at hl
      | cons m t =>
        cases sh with
        | nil => simp [Compatible, common]
        | cons N sh =>
          rw [List.zip_cons_cons, List.forall₂_cons, ih (by simpa using hl), bdim_some]
          unfold Compatible
          rw [List.forall₂_cons]
          show _ ↔ _ ∧ N :: sh = (if n = 1 then m else n) :: common s t
          rw [List.cons.injEq]
          tauto
  refine ⟨fun h => (h1 _).2 ⟨h, rfl⟩, fun h => ?_⟩
  cases h2 : (s.zip t).mapM fun (p : ℕ × ℕ) => bdim p.1 p.2 with
  | none => rfl
  | some sh => exact absurd ((h1 sh).1 h2).1 h

theorem bshape_to {s t : List ℕ} : bshape t s = some t ↔ BroadcastsTo s t := by
  unfold bshape BroadcastsTo
  rw [mapM_some]
  by_cases hl : s.length ≤ t.length
  · have e1 : max t.length s.length - t.length = 0 := by omega
    have e2 : max t.length s.length - s.length = t.length - s.length := by omega
    rw [e1, e2, List.replicate_zero, List.nil_append]
    simp only [hl, true_and]
    have h1 : ∀ (s t : List ℕ), s.length = t.length → (List.Forall₂ (fun (x : ℕ × ℕ) y => bdim x.1 x.2 = some y) (t.zip s) t
        ↔ List.Forall₂ (fun n m => n = m ∨ n = 1) s t) := by
      intro s
      induction s with
      | nil => intro t h; cases t <;> simp_all
      | cons m s ih =>
        intro t h
        cases t with
        | nil => simp at h
        | cons n t =>
          rw [List.zip_cons_cons, List.forall₂_cons, List.forall₂_cons, ih t (by simpa using h), bdim_some]
          have : ((n = m ∨ n = 1 ∨ m = 1) ∧ n = if n = 1 then m else n) ↔ m = n ∨ m = 1 := by
            split_ifs <;> omega
          simp only [this]
    rw [h1 _ _ (by simp; omega)]
    have h2 : ∀ (k : ℕ) (s t : List ℕ), s.length + k = t.length →
        (List.Forall₂ (fun n m => n = m ∨ n = 1) (List.replicate k 1 ++ s) t
          ↔ List.Forall₂ (fun n m => n = m ∨ n = 1) s (t.drop k)) := by
      intro k
      induction k with
      | zero => intro s t _; simp
      | succ k ih =>
        intro s t h
        cases t with
        | nil => simp at h
        | cons n t =>
          rw [List.replicate_succ, List.cons_append, List.forall₂_cons, List.drop_succ_cons, ih s t (by simp at h; omega)]
          simp
    exact h2 _ _ _ (by omega)
  · constructor
    · intro h
      have := h.length_eq
      simp only [List.length_zip, List.length_append, List.length_replicate] at this
      omega
    · intro h
      exact absurd h.1 hl

theorem clip_length {s i : List ℕ} : (clip s i).length = min s.length i.length := List.length_zipWith

/-- **C91, lazy sums.** `X + Y` accepts tensors of any shapes and keeps the shape of the first.  `to_numpy` adds what numpy
can broadcast to that shape, the modes being aligned at the last one, and raises `ValueError` if there is a summand for
which this is impossible. -/
theorem C91_sum [CommSemiring K] (X : TSum K) (hX : ∀ t ∈ X.tensors, t.Valid) :
    ((∀ t ∈ X.tensors, BroadcastsTo t.shape X.shape) → ∃ A, X.toNumpyE = .ok A ∧ A.shape = X.shape ∧
      ∀ i, InR X.shape i → A.get i
        = (X.tensors.map fun t => t.toNumpy.get (clip t.shape (i.drop (X.shape.length - t.shape.length)))).sum) ∧
    ((∃ t ∈ X.tensors, ¬ BroadcastsTo t.shape X.shape) → X.toNumpyE = .error .valueError) := by
  unfold TSum.toNumpyE
  obtain ⟨sh, ts⟩ := X
  simp only at hX ⊢
  have step : ∀ (s : ND K), s.shape = sh → ∀ t : Leaf K, t.Valid →
      (BroadcastsTo t.shape sh → ∃ A, s.iaddE t.toNumpy = .ok A ∧ A.shape = sh ∧ ∀ i, InR sh i →
        A.get i = s.get i + t.toNumpy.get (clip t.shape (i.drop (sh.length - t.shape.length)))) ∧
      (¬ BroadcastsTo t.shape sh → s.iaddE t.toNumpy = .error .valueError) := by
    intro s hs t ht
    unfold ND.iaddE
    rw [hs, Leaf.toNumpy_shape ht]
    constructor
    · intro h
      rw [if_pos (bshape_to.2 h)]
      refine ⟨_, rfl, hs, fun i hi => ?_⟩
      rw [ND.add_get _ _ (by rw [hs]; rfl)]
      congr 1
      unfold ND.bcast
      rw [ND.ofFn_get hi, Leaf.toNumpy_shape ht]
      rfl
    · intro h
      rw [if_neg (fun h' => h (bshape_to.1 h'))]
  constructor
  · have key : ∀ (ts : List (Leaf K)) (s : ND K), s.shape = sh → (∀ t ∈ ts, t.Valid) → (∀ t ∈ ts, BroadcastsTo t.shape sh) →
        ∃ A, ts.foldlM (fun s (t : Leaf K) => s.iaddE t.toNumpy) s = .ok A ∧ A.shape = sh ∧ ∀ i, InR sh i → A.get i
          = s.get i + (ts.map fun t => t.toNumpy.get (clip t.shape (i.drop (sh.length - t.shape.length)))).sum := by
      intro ts
      induction ts with
      | nil => intro s hs _ _; exact ⟨s, rfl, hs, fun i _ => by simp⟩
      | cons t ts ih =>
        intro s hs hv hb
        obtain ⟨A, a1, a2, a3⟩ := (step s hs t (hv t (by simp))).1 (hb t (by simp))
        obtain ⟨B, b1, b2, b3⟩ := ih A a2 (fun t ht => hv t (by simp [ht])) (fun t ht => hb t (by simp [ht]))
        refine ⟨B, ?_, b2, fun i hi => ?_⟩
        · rw [List.foldlM_cons, a1]; exact b1
        · rw [b3 i hi, a3 i hi, List.map_cons, List.sum_cons, add_assoc]
    intro h
    obtain ⟨A, a1, a2, a3⟩ := key ts (ND.zeros sh) rfl hX h
    exact ⟨A, a1, a2, fun i hi => by rw [a3 i hi, ND.zeros_get, zero_add]⟩
  · have key : ∀ (ts : List (Leaf K)) (s : ND K), s.shape = sh → (∀ t ∈ ts, t.Valid) →
        (∃ t ∈ ts, ¬ BroadcastsTo t.shape sh) →
        ts.foldlM (fun s (t : Leaf K) => s.iaddE t.toNumpy) s = .error .valueError := by
      intro ts
      induction ts with
      | nil => intro s _ _ ⟨t, ht, _⟩; exact absurd ht List.not_mem_nil
      | cons t ts ih =>
        rintro s hs hv ⟨t', ht', hn⟩
        rw [List.foldlM_cons]
        by_cases hb : BroadcastsTo t.shape sh
        · obtain ⟨A, a1, a2, -⟩ := (step s hs t (hv t (by simp))).1 hb
          rw [a1]
          refine ih A a2 (fun t ht => hv t (by simp [ht])) ⟨t', ?_, hn⟩
          rcases List.mem_cons.1 ht' with rfl | h
          · exact absurd hb hn
          · exact h
        · rw [(step s hs t (hv t (by simp))).2 hb]; rfl
    exact fun h => key ts _ rfl hX h

/-- **C91, `error`.** For two tensors with the same number of modes (not two tensor trains), `X.error(Y)` is the Frobenius
norm of the broadcast difference, and raises `ValueError` if the shapes cannot be broadcast. -/
theorem C91_error {la : LinAlg} (hq : la.QROk) (X Y : Leaf ℝ) (hX : X.Valid) (hY : Y.Valid)
    (dY : Y.Distinct) (pY : PosTT (.leaf Y)) (hl : X.shape.length = Y.shape.length) (relative rmse : Bool)
    (hr : rmse = true → 0 < X.shape.prod) :
    (Compatible X.shape Y.shape → X.errorE la Y relative rmse = .ok (
      if relative = true ∧ √ (normSq Y.toNumpy) = 0 then .inf
      else .val (√ (sumIdx (common X.shape Y.shape) fun i =>
          (X.toNumpy.get (clip X.shape i) - Y.toNumpy.get (clip Y.shape i)) ^ 2)
        / (if relative then √ (normSq Y.toNumpy) else 1) / (if rmse then √ (X.shape.prod : ℝ) else 1)))) ∧
    (¬ Compatible X.shape Y.shape → X.errorE la Y relative rmse = .error .valueError) := by
  have hn : Tensor.norm la (.leaf Y) = .ok _ := C12 hq (.leaf Y) hY dY pY
  unfold Leaf.errorE ND.subE
  rw [hn]
  rw [Leaf.toNumpy_shape hX, Leaf.toNumpy_shape hY]
  constructor
  · intro h
    rw [(bshape_same hl).1 h]
    have hcl : (common X.shape Y.shape).length = X.shape.length := by
      unfold common
      rw [List.length_zipWith, hl, min_self]
    have hb : ∀ {Z : Leaf ℝ}, Z.Valid → Z.shape.length = X.shape.length → ∀ i, InR (common X.shape Y.shape) i →
        (Z.toNumpy.bcast (common X.shape Y.shape)).get i = Z.toNumpy.get (clip Z.shape i) := by
      intro Z hZ hZl i hi
      unfold ND.bcast
      rw [ND.ofFn_get hi, Leaf.toNumpy_shape hZ, hcl, hZl, Nat.sub_self, List.drop_zero]
      rfl
    show Except.ok (errorOpts X.shape relative rmse (√ (normSq Y.toNumpy)) (.val (ND.frob _))) = _
    rw [frob_sub]
    have e : distSq (X.toNumpy.bcast (common X.shape Y.shape)) (Y.toNumpy.bcast (common X.shape Y.shape))
        = sumIdx (common X.shape Y.shape) fun i =>
          (X.toNumpy.get (clip X.shape i) - Y.toNumpy.get (clip Y.shape i)) ^ 2 := by
      unfold distSq
      exact sumIdx_congr fun i hi => by rw [hb hX rfl i hi, hb hY hl.symm i hi]
    rw [e]
    exact congrArg Except.ok (errorOpts_value _ relative rmse hr)
  · intro h
    rw [(bshape_same hl).2 h]
    rfl

/-- Two tensor trains with the same number of modes and different shapes are rejected by `error`. -/
theorem C91_error_tt {la : LinAlg} (X Y : TT ℝ) (hX : X.Valid) (hY : Y.Valid) (hl : X.shape.length = Y.shape.length)
    (hs : X.shape ≠ Y.shape) (relative rmse : Bool) : X.errorE la Y relative rmse = .error .valueError := by
  have hv : (Y.mul (-1)).Valid := Leaf.mul_valid (X := .tt Y) hY (-1)
  have hm : (Y.mul (-1)).shape = Y.shape := Leaf.mul_shape (X := .tt Y) hY (-1)
  unfold TT.errorE
  rw [C91_add_same X _ hX hv (by rw [hm]; exact hl), if_neg (by rw [hm]; exact hs)]

/-! ### Operands of the same shape -/

theorem compatible_refl : ∀ s : List ℕ, Compatible s s
  | [] => .nil
  | _ :: s => .cons (.inl rfl) (compatible_refl s)

theorem common_self : ∀ s : List ℕ, common s s = s
  | [] => rfl
  | n :: s => by
    show (if n = 1 then n else n) :: common s s = _
    rw [common_self s, ite_self]

/-- For operands of the same shape (with less than `2 ^ 63` entries in the dense form, in case they are sparse) all this is
the model used elsewhere: `dot` does not raise. -/
theorem C91_agree [CommRing K] (X Y : Leaf K) (hX : X.Valid) (hY : Y.Valid) (dX : X.Distinct) (dY : Y.Distinct)
    (hs : X.shape = Y.shape) (hpos : ∀ n ∈ X.shape, 0 < n) (hb : X.shape.prod < 2 ^ 63) :
    X.dotE Y = .ok (X.dot Y) := by
  have hs' : X.toNumpy.shape = Y.toNumpy.shape := by rw [Leaf.toNumpy_shape hX, Leaf.toNumpy_shape hY, hs]
  have hE : X.dot Y = innerND X.toNumpy Y.toNumpy := Leaf.dot_eq hX hY dX dY hs
  by_cases hf : FlatPair X Y
  · rw [C91_dot_flat X Y hX hY hf, if_pos (by rw [hs]), ← denseDot_flat hX hY (by rw [hs]), Leaf.denseDot_eq hs', hE]
  have hl := congrArg List.length hs
  have inS : ∀ {S : Sparse K} {Z : Leaf K}, S.Valid → S.shape = Z.shape → ∀ e ∈ S.entries, InR Z.shape e.1 :=
    fun hv hz e he => hz ▸ hv e he
  have htt : ∀ {S : Sparse K} {B : TT K}, S.Valid → S.Distinct → B.Valid → S.shape = B.shape →
      (Leaf.sparse S).dotE (.tt B) = .ok (innerND S.toNumpy B.toNumpy) := by
    intro S B hS hD hB h
    rw [(C91_dot_sparse_tt S B hS hB (by rw [h])).2.1 fun e he => ?_, sparse_inner hS hD]
    · congr 2
      exact List.map_congr_left fun e he => by rw [if_pos (show InR B.shape e.1 from inS (Z := .tt B) hS h e he)]
    · have hin : InR B.shape e.1 := inS (Z := .tt B) hS h e he
      generalize B.shape = sh at hin
      generalize e.1 = i at hin
      match sh, i, hin with
      | [], [], _ => trivial
      | n :: sh, k :: i, hin => exact ⟨hin.1, trivial⟩
  have hcp : ∀ {S : Sparse K} {B : CP K}, S.Valid → S.Distinct → B.Valid → S.shape = B.shape →
      (Leaf.sparse S).dotE (.cp B) = .ok (innerND S.toNumpy B.toNumpy) := by
    intro S B hS hD hB h
    rw [(C91_dot_sparse_cp S B hS hB (by rw [h])).2.1 (inS (Z := .cp B) hS h), sparse_inner hS hD]
  cases X with
  | dense A => cases Y <;> exact absurd trivial hf
  | tucker A => cases Y <;> exact absurd trivial hf
  | sparse S =>
    cases Y with
    | dense B => exact absurd trivial hf
    | tucker B => exact absurd trivial hf
    | sparse B =>
      rw [hE]
      have h : S.shape = B.shape := hs
      have hb' : S.shape.prod < 2 ^ 63 := hb
      rw [(C91_dot_sparse S B hX hY (by rw [← h]; exact hpos)).1 hl (by rw [← h]; exact hb') (inS (Z := .sparse B) hX hs)]
      exact congrArg _ (sparse_inner hX dX _).symm
    | tt B => rw [hE]; exact htt hX dX hY hs
    | cp B => rw [hE]; exact hcp hX dX hY hs
  | tt A =>
    cases Y with
    | dense B => exact absurd trivial hf
    | tucker B => exact absurd trivial hf
    | cp B => exact absurd trivial hf
    | sparse S =>
      rw [hE, innerND_comm hs', ← (C91_dot_sparse_tt S A hY hX hl.symm).1]
      exact htt hY dY hX hs.symm
    | tt B =>
      have h : A.shape = B.shape := hs
      rw [hE]
      show A.dotE B = .ok (innerND A.toNumpy B.toNumpy)
      rw [(C91_dot_tt A B hX hY hl).1 (by rw [h]; exact compatible_refl _), h, common_self]
      unfold innerND
      rw [TT.toNumpy_shape hX, h]
      exact congrArg _ (sumIdx_congr fun i hi => by rw [clip_self hi])
  | cp A =>
    cases Y with
    | dense B => exact absurd trivial hf
    | tucker B => exact absurd trivial hf
    | cp B => exact absurd trivial hf
    | tt B => exact absurd trivial hf
    | sparse S =>
      rw [hE, innerND_comm hs', ← (C91_dot_sparse_cp S A hY hX hl.symm).1]
      exact hcp hY dY hX hs.symm

/-! ### Examples -/

/-- Two dense arrays of different shapes with an inner product, two without. -/
example : let A : Leaf ℤ := .dense (ND.ofFn [2, 3] fun i => i.getD 0 0 + 1)
    let B : Leaf ℤ := .dense (ND.ofFn [3, 2] fun i => i.getD 0 0 + 1)
    A.shape ≠ B.shape ∧ A.dotE B = .ok 20 ∧ A.dotE (.dense (ND.zeros [2, 2])) = .error .valueError := by
  intro A B
  refine ⟨by decide, ?_, ?_⟩
  · rw [C91_dot_flat A B trivial trivial trivial, if_pos (by rfl)]
    congr 1
  · rw [C91_dot_flat A (.dense (ND.zeros [2, 2])) trivial trivial trivial, if_neg (by decide)]

/-- Tensor trains of shapes `2 × 1` and `2 × 3` have an inner product, those of shapes `2 × 2` and `2 × 3` do not. -/
example : let X (n : ℕ) : TT ℤ := ⟨[ND.ofFn [1, 2, 1] fun i => i.getD 1 0 + 1, ND.ofFn [1, n, 1] fun _ => 2]⟩
    Compatible (X 1).shape (X 3).shape ∧ (X 1).dotE (X 3) = .ok 60 ∧ (X 2).dotE (X 3) = .error .valueError := by
  intro X
  have hv : ∀ n, (X n).Valid := fun n => ⟨by simp [X], 2, 1, rfl, n, 1, rfl, rfl⟩
  have hc : Compatible (X 1).shape (X 3).shape := .cons (.inl rfl) (.cons (.inr (.inl rfl)) .nil)
  refine ⟨hc, ?_, (C91_dot_tt _ _ (hv 2) (hv 3) rfl).2 ?_⟩
  · rw [(C91_dot_tt _ _ (hv 1) (hv 3) rfl).1 hc]
    congr 1
    decide +kernel
  · intro h
    cases h with
    | cons h1 h2 => cases h2 with
      | cons h1 h2 => revert h1; decide

/-- A sparse tensor of shape `5 × 5` and a tensor train of shape `2 × 2`: the entry `7` at `(1, 4)` is left out; the entry at
`(4, 0)` raises. -/
example : let Y : TT ℤ := ⟨[ND.ofFn [1, 2, 1] fun i => i.getD 1 0 + 1, ND.ofFn [1, 2, 1] fun _ => 2]⟩
    (Leaf.sparse ⟨[5, 5], [([1, 1], 3), ([1, 4], 7)]⟩).dotE (.tt Y) = .ok 12 ∧
    (Leaf.sparse ⟨[5, 5], [([4, 0], 3)]⟩).dotE (.tt Y) = .error .indexError := by
  intro Y
  have hv : Y.Valid := ⟨by simp [Y], 2, 1, rfl, 2, 1, rfl, rfl⟩
  refine ⟨?_, (C91_dot_sparse_tt _ Y (by simp [Sparse.Valid]) hv rfl).2.2 ⟨_, List.mem_singleton.2 rfl, by decide⟩⟩
  rw [(C91_dot_sparse_tt _ Y (by simp [Sparse.Valid]) hv rfl).2.1 (by simp [Y, TT.shape, ND.dim, ND.ofFn])]
  exact congrArg _ (by decide +kernel)

/-- A lazy sum of arrays of shapes `2 × 3` and `3`. -/
example : BroadcastsTo [3] [2, 3] ∧ BroadcastsTo [1, 3] [2, 3] ∧ ¬ BroadcastsTo [2] [2, 3] := by
  refine ⟨⟨by decide, .cons (.inl rfl) .nil⟩, ⟨by decide, .cons (.inr rfl) (.cons (.inl rfl) .nil)⟩, fun h => ?_⟩
  have := h.2
  cases this with
  | cons h _ => revert h; decide

/-- The error of one number `3` and four numbers `1`: the root mean square error is divided by the size of the first array. -/
example {la : LinAlg} (hq : la.QROk) : let X : Leaf ℝ := .dense (ND.ofFn [1, 1] fun _ => 3)
    let Y : Leaf ℝ := .dense (ND.ofFn [2, 2] fun _ => 1)
    X.errorE la Y false true = .ok (.val 4) ∧ X.errorE la (.dense (ND.zeros [0, 3])) false true ≠ .error .valueError ∧
    Y.errorE la (.dense (ND.zeros [2, 3])) false true = .error .valueError := by
  intro X Y
  have hc : Compatible X.shape Y.shape := .cons (.inr (.inl rfl)) (.cons (.inr (.inl rfl)) .nil)
  have hc' : Compatible X.shape (Leaf.dense (ND.zeros (K := ℝ) [0, 3])).shape :=
    .cons (.inr (.inl rfl)) (.cons (.inr (.inl rfl)) .nil)
  refine ⟨?_, ?_, (C91_error hq Y (.dense (ND.zeros [2, 3])) trivial trivial trivial trivial rfl false true
    (fun _ => by decide)).2 ?_⟩
  · rw [(C91_error hq X Y trivial trivial trivial trivial rfl false true (fun _ => by decide)).1 hc, if_neg (by simp)]
    have e : (sumIdx (common X.shape Y.shape) fun i =>
        (X.toNumpy.get (clip X.shape i) - Y.toNumpy.get (clip Y.shape i)) ^ 2) = 4 ^ 2 := by
      have h : ∀ i, InR (common X.shape Y.shape) i →
          (X.toNumpy.get (clip X.shape i) - Y.toNumpy.get (clip Y.shape i)) ^ 2 = 4 := by
        intro i hi
        have hi : InR [2, 2] i := hi
        have h1 : X.toNumpy.get (clip X.shape i) = 3 := by
          match i, hi with
          | [a, b], _ => exact ND.ofFn_get (s := [1, 1]) (i := [0, 0]) (by decide)
        have h2 : Y.toNumpy.get (clip Y.shape i) = 1 := by
          have := clip_self hi
          show (ND.ofFn [2, 2] fun _ => (1 : ℝ)).get (clip [2, 2] i) = 1
          rw [this]
          exact ND.ofFn_get (s := [2, 2]) hi
        rw [h1, h2]; norm_num
      rw [sumIdx_congr h]
      show sumIdx [2, 2] (fun _ => (4 : ℝ)) = _
      simp [sumIdx_cons]
      norm_num
    rw [e, Real.sqrt_sq (by norm_num)]
    simp [X, Leaf.shape, ND.ofFn]
  · rw [(C91_error hq X (.dense (ND.zeros [0, 3])) trivial trivial trivial trivial rfl false true (fun _ => by decide)).1 hc']
    exact fun h => by cases h
  · intro h
    cases h with
    | cons h h' => cases h' with
      | cons h _ => revert h; decide

end TTS.Props
