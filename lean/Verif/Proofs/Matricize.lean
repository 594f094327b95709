import Verif.Proofs.TensorAdd

/-! Matricization. -/

namespace TTS

variable {K : Type*} [Zero K]

theorem getD_inR {s i : List ℕ} (h : InR s i) (l : List ℕ) (hl : ∀ a ∈ l, a < s.length) :
    InR (l.map fun a => s.getD a 0) (l.map fun a => i.getD a 0) := by
  rw [ND.inR_iff_getD]
  refine ⟨by simp, fun k hk => ?_⟩
  have hk' : k < l.length := by simpa using hk
  have := (ND.inR_iff_getD.1 h).2 (l[k]) (hl _ (List.getElem_mem hk'))
  simpa [List.getD_eq_getElem?_getD, hk'] using this

/-- the modes that are not selected, in increasing order -/
def restModes (d : ℕ) (mode : List ℕ) : List ℕ := (List.range d).filter (fun i => i ∉ mode)

theorem mem_restModes {d a : ℕ} {mode : List ℕ} : a ∈ restModes d mode ↔ a < d ∧ a ∉ mode := by
  simp [restModes]

theorem matricize_perm_get {A : ND K} {mode : List ℕ} (hm : ∀ a ∈ mode, a < A.ndim)
    {i : List ℕ} (hi : InR A.shape i) :
    (A.transpose (mode ++ restModes A.ndim mode)).get
      (mode.map (fun a => i.getD a 0) ++ (restModes A.ndim mode).map (fun a => i.getD a 0))
      = A.get i := by
  have := ND.transpose_get_perm (A := A) (perm := mode ++ restModes A.ndim mode)
    (by
      intro a ha
      by_cases h : a ∈ mode
      · exact List.mem_append_left _ h
      · exact List.mem_append_right _ (mem_restModes.2 ⟨ha, h⟩))
    (by
      intro a ha
      rcases List.mem_append.1 ha with h | h
      · exact hm a h
      · exact (mem_restModes.1 h).1) hi
  rwa [List.map_append] at this

theorem matricize_shape_true (A : ND K) (mode : List ℕ) :
    (A.matricize mode true).shape = [(mode.map fun a => A.shape.getD a 0).prod,
      ((restModes A.ndim mode).map fun a => A.shape.getD a 0).prod] := by
  simp only [ND.matricize, ND.reshape_shape, ND.transpose_shape, if_true, List.map_append]
  rw [List.take_left' (by simp), List.drop_left' (by simp)]
  rfl

theorem matricize_get_true {A : ND K} {mode : List ℕ} (hm : ∀ a ∈ mode, a < A.ndim)
    {i : List ℕ} (hi : InR A.shape i) :
    (A.matricize mode true).get
      [ravel (mode.map fun a => A.shape.getD a 0) (mode.map fun a => i.getD a 0),
       ravel ((restModes A.ndim mode).map fun a => A.shape.getD a 0)
        ((restModes A.ndim mode).map fun a => i.getD a 0)] = A.get i := by
  rw [← matricize_perm_get hm hi]
  have hs : (A.transpose (mode ++ restModes A.ndim mode)).shape
      = (mode.map fun a => A.shape.getD a 0) ++ ((restModes A.ndim mode).map fun a => A.shape.getD a 0) := by
    simp [ND.dim]
  have h1 := getD_inR hi mode hm
  have h2 := getD_inR hi (restModes A.ndim mode) (fun a ha => (mem_restModes.1 ha).1)
  rw [← ND.reshape_mat hs h1 h2]
  congr 1
  simp only [ND.matricize, if_true]
  congr 1
  · show [_] ++ [_] = _
    have e : (A.transpose (mode ++ (List.range A.ndim).filter (fun i => i ∉ mode))).shape
      = (mode.map fun a => A.shape.getD a 0) ++ ((restModes A.ndim mode).map fun a => A.shape.getD a 0) := hs
    rw [e, List.take_left' (by simp), List.drop_left' (by simp)]
    rfl

theorem matricize_shape_false (A : ND K) (mode : List ℕ) :
    (A.matricize mode false).shape = (mode.map fun a => A.shape.getD a 0) ++
      [((restModes A.ndim mode).map fun a => A.shape.getD a 0).prod] := by
  simp only [ND.matricize, ND.reshape_shape, ND.transpose_shape, List.map_append]
  rw [if_neg (by simp), List.take_left' (by simp), List.drop_left' (by simp)]
  rfl

theorem matricize_get_false {A : ND K} {mode : List ℕ} (hm : ∀ a ∈ mode, a < A.ndim)
    {i : List ℕ} (hi : InR A.shape i) :
    (A.matricize mode false).get
      ((mode.map fun a => i.getD a 0) ++
       [ravel ((restModes A.ndim mode).map fun a => A.shape.getD a 0)
        ((restModes A.ndim mode).map fun a => i.getD a 0)]) = A.get i := by
  rw [← matricize_perm_get hm hi]
  have hs : (A.transpose (mode ++ restModes A.ndim mode)).shape
      = (mode.map fun a => A.shape.getD a 0) ++ ((restModes A.ndim mode).map fun a => A.shape.getD a 0) ++ [] := by
    simp [ND.dim]
  have h2 := getD_inR hi (restModes A.ndim mode) (fun a ha => (mem_restModes.1 ha).1)
  have := ND.reshape_merge hs (o := mode.map fun a => i.getD a 0) (q := []) (by simp) h2
  rw [List.append_nil] at this
  rw [← this]
  congr 1
  simp only [ND.matricize]
  congr 1
  · have e : (A.transpose (mode ++ (List.range A.ndim).filter (fun i => i ∉ mode))).shape
      = (mode.map fun a => A.shape.getD a 0) ++ ((restModes A.ndim mode).map fun a => A.shape.getD a 0) :=
      hs.trans (List.append_nil _)
    rw [if_neg (by simp), e, List.take_left' (by simp), List.drop_left' (by simp)]

theorem restModes_single {m : ℕ} : ∀ (l : List ℕ), m < l.length →
    (restModes l.length [m]).map (fun a => l.getD a 0) = l.eraseIdx m := by
  intro l hm
  have e : restModes l.length [m] = (List.range l.length).eraseIdx m := by
    have h1 : restModes l.length [m] = (List.range l.length).erase m := by
      rw [List.Nodup.erase_eq_filter List.nodup_range, restModes]
      refine List.filter_congr fun x _ => ?_
      by_cases hx : x = m <;> simp [hx]
    rw [h1, List.erase_eq_eraseIdx]
    have : List.idxOf? m (List.range l.length) = some m := by
      rw [List.idxOf?_eq_some_iff]
      refine ⟨by simpa using hm, by simp, fun j hj => by simp; omega⟩
    rw [this]
  rw [e, List.eraseIdx_eq_take_drop_succ, List.eraseIdx_eq_take_drop_succ, List.map_append,
    List.map_take, List.map_drop, ND.map_range_getD]

theorem dematricize_matricize {A : ND K} {m : ℕ} (hm : m < A.ndim) :
    (A.matricize [m] false).dematricize m A.shape = A := by
  have hm' : m < A.shape.length := hm
  set B := A.matricize [m] false with hB
  have hBs : B.shape = [A.shape.getD m 0, (A.shape.eraseIdx m).prod] := by
    rw [hB, matricize_shape_false]
    have := restModes_single A.shape hm
    simp only [ND.ndim] at this ⊢
    rw [this]; rfl
  have hd0 : B.dim 0 = A.shape.getD m 0 := by simp [ND.dim, hBs]
  set perm := (List.range' 1 (A.shape.length - 1)).take m ++ [0]
    ++ (List.range' 1 (A.shape.length - 1)).drop m with hperm
  have hpermap : ∀ (x : ℕ) (l : List ℕ), l.length = A.shape.length - 1 →
      perm.map (fun a => (x :: l).getD a 0) = l.take m ++ [x] ++ l.drop m := by
    intro x l hl
    have hr : (List.range' 1 (A.shape.length - 1)).map (fun a => (x :: l).getD a 0) = l := by
      rw [List.range'_eq_map_range, List.map_map, ← hl]
      conv_rhs => rw [← ND.map_range_getD l]
      refine List.map_congr_left fun a _ => ?_
      rw [Function.comp_apply, Nat.add_comm]; rfl
    rw [hperm, List.map_append, List.map_append, List.map_take, List.map_drop, hr]
    rfl
  have hrec : ∀ l : List ℕ, l.length = A.shape.length →
      (l.eraseIdx m).take m ++ [l.getD m 0] ++ (l.eraseIdx m).drop m = l := by
    intro l hl
    have hml : m < l.length := by omega
    rw [List.eraseIdx_eq_take_drop_succ]
    have e1 : (l.take m ++ l.drop (m + 1)).take m = l.take m := by
      rw [List.take_left' (by simp; omega)]
    have e2 : (l.take m ++ l.drop (m + 1)).drop m = l.drop (m + 1) := by
      rw [List.drop_left' (by simp; omega)]
    rw [e1, e2, List.getD_eq_getElem _ _ hml]
    simp
  have hA's : (B.reshape (B.dim 0 :: A.shape.eraseIdx m)).shape
      = A.shape.getD m 0 :: A.shape.eraseIdx m := by rw [ND.reshape_shape, hd0]
  have helen : (A.shape.eraseIdx m).length = A.shape.length - 1 := by
    rw [List.length_eraseIdx_of_lt hm']
  have hDs : (B.dematricize m A.shape).shape = A.shape := by
    show (List.map (fun a => (B.reshape (B.dim 0 :: A.shape.eraseIdx m)).dim a) perm) = _
    have : (fun a => (B.reshape (B.dim 0 :: A.shape.eraseIdx m)).dim a)
        = fun a => (A.shape.getD m 0 :: A.shape.eraseIdx m).getD a 0 := by
      funext a; rw [ND.dim, hA's]
    rw [this, hpermap _ _ helen, hrec _ rfl]
  refine ND.ext' hDs ?_
  intro i hi
  rw [hDs] at hi
  have hil := hi.length
  have hrest : (restModes A.ndim [m]).map (fun a => i.getD a 0) = i.eraseIdx m := by
    have := restModes_single i (by omega : m < i.length)
    rwa [hil] at this
  have hrestS : (restModes A.ndim [m]).map (fun a => A.shape.getD a 0) = A.shape.eraseIdx m :=
    restModes_single A.shape hm
  have hei : InR (A.shape.eraseIdx m) (i.eraseIdx m) := by
    have := getD_inR hi (restModes A.ndim [m]) (fun a ha => (mem_restModes.1 ha).1)
    rwa [hrest, hrestS] at this
  have him : i.getD m 0 < A.shape.getD m 0 := (ND.inR_iff_getD.1 hi).2 m hm'
  have key := ND.transpose_get_perm (A := B.reshape (B.dim 0 :: A.shape.eraseIdx m)) (perm := perm)
    (i := i.getD m 0 :: i.eraseIdx m)
    (by
      intro a ha
      have ha' : a < A.shape.length := by
        have : (B.reshape (B.dim 0 :: A.shape.eraseIdx m)).ndim = A.shape.length := by
          show (B.reshape _).shape.length = _
          rw [hA's]; simp [helen]; omega
        omega
      rw [hperm]
      by_cases h0 : a = 0
      · simp [h0]
      · have : a ∈ List.range' 1 (A.shape.length - 1) := by
          rw [List.mem_range'_1]; omega
        rw [← List.take_append_drop m (List.range' 1 (A.shape.length - 1))] at this
        rcases List.mem_append.1 this with h | h
        · exact List.mem_append_left _ (List.mem_append_left _ h)
        · exact List.mem_append_right _ h)
    (by
      intro a ha
      have e : (B.reshape (B.dim 0 :: A.shape.eraseIdx m)).ndim = A.shape.length := by
        show (B.reshape _).shape.length = _
        rw [hA's]; simp [helen]; omega
      rw [e]
      have hmem : a = 0 ∨ a ∈ List.range' 1 (A.shape.length - 1) := by
        rw [hperm] at ha
        simp only [List.mem_append, List.mem_singleton] at ha
        rcases ha with (h | h) | h
        · exact Or.inr (List.mem_of_mem_take h)
        · exact Or.inl h
        · exact Or.inr (List.mem_of_mem_drop h)
      rcases hmem with h | h
      · omega
      · rw [List.mem_range'_1] at h; omega)
    (by rw [hA's]; exact ⟨him, hei⟩)
  rw [hpermap _ _ (by rw [List.length_eraseIdx_of_lt (by omega)]; omega), hrec i hil] at key
  have : (B.dematricize m A.shape).get i
      = (B.reshape (B.dim 0 :: A.shape.eraseIdx m)).get (i.getD m 0 :: i.eraseIdx m) := key
  rw [this, hd0]
  have h2 := ND.reshape_split (A := B) (u := [A.shape.getD m 0]) (s := A.shape.eraseIdx m) (t := [])
    (by simpa using hBs) (o := [i.getD m 0]) (q := []) rfl hei
  simp only [List.cons_append, List.nil_append, List.append_nil] at h2
  rw [h2]
  have h3 := matricize_get_false (A := A) (mode := [m]) (by simpa using hm) hi
  rw [hrest, hrestS] at h3
  exact h3

end TTS
