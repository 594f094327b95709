import Verif.Proofs.GmresVec

/-!
# The vectors of a GMRES run
-/

namespace TTS.Props

open Finset Spec

theorem linMap_good {la : LinAlg2} (hq : la.QROk) (ht : la.SolveTriOk) {m : LinMap} (hm : m.Ok la)
    (hr : ∀ A, m = .mpo A → ∀ r ∈ A.rank, 0 < r) {s : List ℕ} (hi : m.inShape = s) (ho : m.outShape = s) {x : TT ℝ}
    (hx : Good s x) : ∃ y, m.call la x = .ok y ∧ Good s y ∧ m.Maps x.toNumpy.get y.toNumpy.get := by
  obtain ⟨y, y1, y2, y3, y4⟩ := linMap_call la hq ht m hm x hx.1 hx.2.1 (hx.2.2.trans hi.symm)
  refine ⟨y, y1, ⟨y2, ⟨?_, ?_⟩, y3.trans ho⟩, y4⟩
  · rw [y3, ho, ← hx.2.2]; exact hx.2.1.1
  · cases m with
    | mpo A =>
      obtain ⟨-, -, h3, -⟩ := C50 A x hm hx.1 (hx.2.2.trans hi.symm)
      injection y1 with y1
      rw [← y1, h3]
      intro r hr'
      rw [List.mem_iff_getElem] at hr'
      obtain ⟨k, hk, rfl⟩ := hr'
      rw [List.getElem_zipWith]
      exact Nat.mul_pos (hr A rfl _ (List.getElem_mem _)) (hx.2.1.2 _ (List.getElem_mem _))
    | precond P =>
      obtain ⟨A, n, e, hA, hdet, hmo, hn⟩ := hm
      have hsx : x.shape = P.shape := hx.2.2.trans hi.symm
      obtain ⟨Y, z1, _, _, _, z4, _⟩ := C53_backward la hq ht A P.shape P.mode n hA hdet x hx.1 hx.2.1
        (by rw [hsx]; exact hmo) (by rw [hsx]; exact hn)
      rw [← e] at z1
      have y1 : P.backward la x = .ok y := y1
      rw [z1] at y1
      injection y1 with y1
      rw [← y1, z4]
      exact hx.2.1.2
    | user u =>
      obtain ⟨-, M, hM⟩ := hm
      obtain ⟨Y, z1, _, _, z4, _⟩ := hM x hx.1 hx.2.1 (hx.2.2.trans hi.symm)
      have y1 : u.call x = .ok y := y1
      rw [z1] at y1
      injection y1 with y1
      rw [← y1]
      exact z4

theorem sum_shapes {la : LinAlg2} {a : GmresArgs} (ha : a.Ok la) :
    a.A.maps ≠ [] ∧ ∀ m ∈ a.A.maps, m.inShape = a.b.shape ∧ m.outShape = a.b.shape := by
  have hmaps : a.A.maps ≠ [] := by
    intro h
    have := ha.op
    rw [h] at this
    simp [LinMapSum.new] at this
  refine ⟨hmaps, ?_⟩
  by_cases h : ∃ l ∈ a.A.maps, ∃ l' ∈ a.A.maps, l.inShape ≠ l'.inShape ∨ l.outShape ≠ l'.outShape
  · have := ha.op
    rw [(C54_new _).2 (Or.inr h)] at this
    cases this
  · push Not at h
    obtain ⟨m0, hm0⟩ := List.exists_mem_of_ne_nil _ hmaps
    have := (C54_new _).1 m0.inShape m0.outShape hmaps fun l hl => h l hl m0 hm0
    rw [ha.op] at this
    injection this with this
    intro m hm
    have h1 := congrArg LinMapSum.inShape this
    have h2 := congrArg LinMapSum.outShape this
    rw [ha.inShape] at h1
    rw [ha.outShape] at h2
    rw [(h m hm m0 hm0).1, (h m hm m0 hm0).2]
    exact ⟨h1.symm, h2.symm⟩

/-- the operator of the system, the preconditioner, and what the code computes with them -/
structure Ops (la : LinAlg2) (a : GmresArgs) (A P : E a.b.shape →ₗ[ℝ] E a.b.shape) : Prop where
  sum : ∀ f g, MapsSum a.A.maps a.b.shape f g ↔ vec a.b.shape g = A (vec a.b.shape f)
  prec : ∀ f g, PrecMaps a.precond a.b.shape f g ↔ vec a.b.shape g = P (vec a.b.shape f)
  app : ∀ x, Good a.b.shape x → ∃ ys, applyPr la a.A a.precond x = .ok ys ∧ TTList ys a.b.shape ∧
    tvs a.b.shape ys = P (A (tv a.b.shape x))
  rhs : ∀ x, Good a.b.shape x → ∃ y, precondRhs la a.precond x = .ok y ∧ Good a.b.shape y ∧
    tv a.b.shape y = P (tv a.b.shape x)

theorem ops_of {la : LinAlg2} {a : GmresArgs} (ha : a.Ok la)
    (hg : ∀ m, (m ∈ a.A.maps ∨ ∃ P, a.precond = some P ∧ m = .precond P) → ∀ x, Good a.b.shape x →
      ∃ y, m.call la x = .ok y ∧ Good a.b.shape y ∧ m.Maps x.toNumpy.get y.toNumpy.get) :
    ∃ A P, Ops la a A P := by
  classical
  obtain ⟨hne, hsh⟩ := sum_shapes ha
  obtain ⟨A, hA, hA'⟩ := mapsSum_op ha.maps hsh
  obtain ⟨P, hP⟩ := precMaps_op ha.precond
  have hrhs : ∀ x, Good a.b.shape x → ∃ y, precondRhs la a.precond x = .ok y ∧ Good a.b.shape y ∧
      tv a.b.shape y = P (tv a.b.shape x) := by
    intro x hx
    cases hp : a.precond with
    | none =>
      refine ⟨x, rfl, hx, ?_⟩
      rw [hp] at hP
      exact (hP _ _).1 fun _ _ => rfl
    | some p =>
      obtain ⟨y, y1, y2, y3⟩ := hg (.precond p) (.inr ⟨p, hp, rfl⟩) x hx
      refine ⟨y, y1, y2, ?_⟩
      rw [hp] at hP
      exact (hP _ _).1 y3
  refine ⟨A, P, hA, hP, ?_, hrhs⟩
  intro x hx
  have hex : ∀ m ∈ a.A.maps, ∃ y, m.call la x = .ok y ∧ Good a.b.shape y ∧ m.Maps x.toNumpy.get y.toNumpy.get :=
    fun m hm => hg m (.inl hm) x hx
  let Y : LinMap → TT ℝ := fun m => if h : m ∈ a.A.maps then (hex m h).choose else ⟨[]⟩
  have hY : ∀ m ∈ a.A.maps, m.call la x = .ok (Y m) ∧ Good a.b.shape (Y m) ∧ m.Maps x.toNumpy.get (Y m).toNumpy.get := by
    intro m hm
    have : Y m = (hex m hm).choose := dif_pos hm
    rw [this]
    exact (hex m hm).choose_spec
  have hcall : a.A.call la [x] = .ok (a.A.maps.map Y) := by
    unfold LinMapSum.call
    rw [outputs_ok la (fun m _ => Y m) [x] a.A.maps (by
      intro m hm x' hx'
      rw [List.mem_singleton] at hx'
      subst hx'
      exact (hY m hm).1)]
    have e : (a.A.maps.flatMap fun m => [x].map fun _ => Y m) = a.A.maps.map Y := by
      simp only [List.map_cons, List.map_nil]
      exact List.map_eq_flatMap.symm
    rw [e]
    cases e' : a.A.maps with
    | nil => exact absurd e' hne
    | cons m ms => rfl
  have hgood : ∀ t ∈ a.A.maps.map Y, Good a.b.shape t := by
    intro t h
    obtain ⟨m, hm, rfl⟩ := List.mem_map.1 h
    exact (hY m hm).2.1
  have hne' : a.A.maps.map Y ≠ [] := by simpa using hne
  have hsum : tvs a.b.shape (a.A.maps.map Y) = A (tv a.b.shape x) := by
    rw [tv, ← hA' x.toNumpy.get (fun m => (Y m).toNumpy.get) fun m hm => (hY m hm).2.2,
      ← tvs_eq ⟨hne', hgood⟩]
    refine vec_eq.2 fun k _ => ?_
    rw [ttSum_get ⟨hne', hgood⟩, List.map_map]
    rfl
  cases hp : a.precond with
  | none =>
    refine ⟨a.A.maps.map Y, by simp only [applyPr, hcall, Except.andThen], ⟨hne', hgood⟩, ?_⟩
    rw [hsum]
    obtain ⟨y, y1, y2, y3⟩ := hrhs x hx
    rw [hp] at hP
    have : ∀ v : E a.b.shape, P v = v := fun v => by
      have := (hP (ext a.b.shape v) (ext a.b.shape v)).1 fun _ _ => rfl
      rw [vec_ext] at this
      exact this.symm
    rw [this]
  | some p =>
    have hb : ∀ t ∈ a.A.maps.map Y, ∃ y, p.backward la t = .ok y ∧ Good a.b.shape y ∧
        tv a.b.shape y = P (tv a.b.shape t) := by
      intro t h
      obtain ⟨y, y1, y2, y3⟩ := hrhs t (hgood t h)
      rw [hp] at y1
      exact ⟨y, y1, y2, y3⟩
    let Z : TT ℝ → TT ℝ := fun t => if h : t ∈ a.A.maps.map Y then (hb t h).choose else ⟨[]⟩
    have hZ : ∀ t ∈ a.A.maps.map Y, p.backward la t = .ok (Z t) ∧ Good a.b.shape (Z t) ∧
        tv a.b.shape (Z t) = P (tv a.b.shape t) := by
      intro t h
      have : Z t = (hb t h).choose := dif_pos h
      rw [this]
      exact (hb t h).choose_spec
    refine ⟨(a.A.maps.map Y).map Z, ?_, ⟨by simpa using hne, ?_⟩, ?_⟩
    · simp only [applyPr, hcall, Except.andThen]
      exact mapM_map fun t h => (hZ t h).1
    · intro t h
      obtain ⟨u, hu, rfl⟩ := List.mem_map.1 h
      exact (hZ u hu).2.1
    · have key : ∀ l : List (TT ℝ), (∀ t ∈ l, tv a.b.shape (Z t) = P (tv a.b.shape t)) →
          (l.map Z).map (tv a.b.shape) = (l.map (tv a.b.shape)).map P := by
        intro l hl
        rw [List.map_map, List.map_map]
        exact List.map_congr_left hl
      rw [← hsum, tvs, tvs, map_list_sum, key _ fun t h => (hZ t h).2.2]

theorem ops_exist {la : LinAlg2} (hq : la.QROk) (ht : la.SolveTriOk) {a : GmresArgs} (ha : a.Ok la) :
    ∃ A P, Ops la a A P := by
  obtain ⟨-, hsh⟩ := sum_shapes ha
  refine ops_of ha fun m hm x hx => ?_
  rcases hm with hm | ⟨P, hP, rfl⟩
  · exact linMap_good hq ht (ha.maps m hm) (fun B hB => ha.ranks B (hB ▸ hm)) (hsh m hm).1 (hsh m hm).2 hx
  · obtain ⟨p1, p2⟩ := ha.precond P hP
    exact linMap_good hq ht p1 (fun _ h => by cases h) p2 p2 hx

/-- without preconditioners no factorisation is involved -/
theorem ops_plain {la : LinAlg2} {a : GmresArgs} (ha : a.Ok la) (h0 : a.precond = none)
    (h1 : ∀ P, LinMap.precond P ∉ a.A.maps) : ∃ A P, Ops la a A P := by
  obtain ⟨-, hsh⟩ := sum_shapes ha
  refine ops_of ha fun m hm x hx => ?_
  rcases hm with hm | ⟨P, hP, rfl⟩
  · obtain ⟨hi, ho⟩ := hsh m hm
    have hok := ha.maps m hm
    have hxi : x.shape = m.inShape := hx.2.2.trans hi.symm
    cases m with
    | precond P => exact absurd hm (h1 P)
    | mpo A =>
      obtain ⟨y1, y2, y3, y4⟩ := C50 A x hok hx.1 hxi
      refine ⟨_, rfl, ⟨y1, ⟨?_, ?_⟩, y2.trans ho⟩, y4⟩
      · rw [y2, show A.outShape = a.b.shape from ho, ← hx.2.2]; exact hx.2.1.1
      · rw [y3]
        intro r hr'
        rw [List.mem_iff_getElem] at hr'
        obtain ⟨k, hk, rfl⟩ := hr'
        rw [List.getElem_zipWith]
        exact Nat.mul_pos (ha.ranks A hm _ (List.getElem_mem _)) (hx.2.1.2 _ (List.getElem_mem _))
    | user u =>
      obtain ⟨-, M, hM⟩ := hok
      obtain ⟨Y, z1, z2, z3, z4, z5⟩ := hM x hx.1 hx.2.1 hxi
      have z3' : Y.shape = a.b.shape := z3.trans ho
      exact ⟨Y, z1, ⟨z2, ⟨by rw [z3', ← hx.2.2]; exact hx.2.1.1, z4⟩, z3'⟩, M, hM, z5⟩
  · rw [h0] at hP; cases hP

end TTS.Props
