import Verif.Spec.SumHeap

/-! # C10: in-place accumulation of lazy sums -/

namespace TTS

variable {K : Type*} [CommSemiring K]

namespace SumHeap

theorem denote_valOf (h : SumHeap K) (ok : h.Ok) (v : Val K)
    (hv : ∀ a, v = .ref a → a < h.sums.length) :
    h.denote.valOf v = fun i => ((h.summands v).map fun t => t.toNumpy.get i).sum := by
  cases v with
  | leaf X => funext i; simp [SumSpec.valOf, summands]
  | ref a =>
    have ha := hv a rfl
    simp [SumSpec.valOf, denote, summands, List.getD_eq_getElem?_getD, ha]

theorem bindNew_ok {h : SumHeap K} (ok : h.Ok) (x : ℕ) {l : List (Leaf K)} (hl : l ≠ []) :
    ∃ h', h.bindNew x l = .ok h' ∧ h'.Ok ∧ h'.denote
      = h.denote.bindNew x (fun i => (l.map fun t => t.toNumpy.get i).sum) := by
  refine ⟨_, if_neg hl, ?_, ?_⟩
  · refine ⟨?_, ?_, ?_, ?_⟩
    · simp only [List.nodup_append, List.nodup_cons, List.not_mem_nil, not_false_eq_true,
        List.nodup_nil, and_true, List.mem_singleton]
      refine ⟨ok.noShare, trivial, ?_⟩
      rintro a ha b rfl hab
      have := ok.alloc a ha
      omega
    · intro y hy
      simp only [List.mem_append, List.mem_singleton] at hy
      rcases hy with hy | rfl
      · have := ok.alloc y hy; simp; omega
      · simp
    · intro a ha
      simp only [List.length_append, List.length_singleton] at ha
      by_cases h1 : a < h.sums.length
      · have h2 := ok.alloc _ (List.getElem_mem h1)
        have := ok.nonempty a h1
        simp only [listOf, List.getD_eq_getElem?_getD] at this ⊢
        rw [List.getElem?_append_left h1, List.getElem?_eq_getElem h1] at *
        simp only [Option.getD_some] at this ⊢
        rwa [List.getElem?_append_left h2]
      · have : a = h.sums.length := by omega
        subst this
        simpa [listOf] using hl
    · intro y a hy
      simp only [Function.update_apply] at hy
      split_ifs at hy with hxy
      · simp only [Option.some.injEq, Val.ref.injEq] at hy; simp; omega
      · have := ok.env y a hy; simp; omega
  · simp only [denote, SumSpec.bindNew, List.length_map, List.length_range, List.length_append,
      List.length_singleton, List.range_succ, List.map_append, List.map_cons, List.map_nil,
      SumSpec.mk.injEq, true_and]
    congr 1
    · refine List.map_congr_left fun a ha => ?_
      have h1 : a < h.sums.length := by simpa using ha
      have h2 := ok.alloc _ (List.getElem_mem h1)
      funext i
      simp only [listOf, List.getD_eq_getElem?_getD]
      rw [List.getElem?_append_left h1, List.getElem?_eq_getElem h1]
      simp only [Option.getD_some]
      rw [List.getElem?_append_left h2]
    · simp [listOf]

theorem step_refines (h : SumHeap K) (ok : h.Ok) (s : Stmt) (hs : ∀ x y, s ≠ .share x y) :
    (∃ e, h.step s = .error e ∧ h.denote.step s = .error e) ∨
    ∃ h', h.step s = .ok h' ∧ h'.Ok ∧ h.denote.step s = .ok h'.denote := by
  have hval : ∀ x v, h.env x = some v →
      h.denote.valOf v = fun i => ((h.summands v).map fun t => t.toNumpy.get i).sum := by
    intro x v hx
    exact denote_valOf h ok v (fun a ha => ok.env x a (by rw [hx, ha]))
  have hne : ∀ x v, h.env x = some v → h.summands v ≠ [] := by
    intro x v hx
    cases v with
    | leaf X => simp [summands]
    | ref a => exact ok.nonempty a (ok.env x a hx)
  cases s with
  | share x y => exact absurd rfl (hs x y)
  | assign x y =>
    simp only [step, SumSpec.step]
    have : h.denote.env = h.env := rfl
    rw [this]
    cases hy : h.env y with
    | none => exact Or.inl ⟨_, rfl, rfl⟩
    | some v =>
      refine Or.inr ⟨_, rfl, ⟨ok.noShare, ok.alloc, ok.nonempty, ?_⟩, rfl⟩
      intro z a hz
      simp only [Function.update_apply] at hz
      split_ifs at hz with hxy
      · exact ok.env y a (by rw [hy]; exact hz)
      · exact ok.env z a hz
  | add x y z =>
    simp only [step, SumSpec.step]
    have : h.denote.env = h.env := rfl
    rw [this]
    cases hy : h.env y with
    | none => exact Or.inl ⟨_, rfl, rfl⟩
    | some v =>
      cases hz : h.env z with
      | none => exact Or.inl ⟨_, rfl, rfl⟩
      | some w =>
        obtain ⟨h', e1, e2, e3⟩ := bindNew_ok ok x (l := h.summands v ++ h.summands w)
          (by simp [hne y v hy])
        refine Or.inr ⟨h', e1, e2, ?_⟩
        show Except.ok (h.denote.bindNew x (h.denote.valOf v + h.denote.valOf w)) = _
        rw [e3, hval y v hy, hval z w hz]
        simp only [List.map_append, List.sum_append]
        rfl
  | iadd x y =>
    simp only [step, SumSpec.step]
    have henv : h.denote.env = h.env := rfl
    rw [henv]
    cases hx : h.env x with
    | none => exact Or.inl ⟨_, rfl, rfl⟩
    | some vx =>
      cases hy : h.env y with
      | none => cases vx <;> exact Or.inl ⟨_, rfl, rfl⟩
      | some v =>
        cases vx with
        | leaf X =>
          obtain ⟨h', e1, e2, e3⟩ := bindNew_ok ok x (l := X :: h.summands v) (by simp)
          refine Or.inr ⟨h', e1, e2, ?_⟩
          show Except.ok (h.denote.bindNew x (X.toNumpy.get + h.denote.valOf v)) = _
          rw [e3, hval y v hy]
          simp only [List.map_cons, List.sum_cons]
          rfl
        | ref a =>
          have ha := ok.env x a hx
          have hb := ok.alloc _ (List.getElem_mem ha)
          have hga : h.sums.getD a 0 = h.sums[a] := List.getD_eq_getElem _ _ ha
          -- contents of every list object after the update
          have hlist : ∀ b, (hb : b < h.sums.length) →
              (⟨h.env, h.sums, h.lists.set (h.sums.getD a 0) (h.listOf a ++ h.summands v)⟩ :
                SumHeap K).listOf b
              = if b = a then h.listOf a ++ h.summands v else h.listOf b := by
            intro b hb'
            have hgb : h.sums.getD b 0 = h.sums[b] := List.getD_eq_getElem _ _ hb'
            by_cases hab : b = a
            · subst hab
              rw [if_pos rfl]
              have hlt : h.sums[b] < (h.lists.set h.sums[b] (h.listOf b ++ h.summands v)).length := by
                simpa using hb
              show (h.lists.set (h.sums.getD b 0) (h.listOf b ++ h.summands v)).getD
                (h.sums.getD b 0) [] = _
              rw [hga, List.getD_eq_getElem _ _ hlt]
              simp
            · rw [if_neg hab]
              have hneq : h.sums[a] ≠ h.sums[b] := by
                intro he
                exact hab ((List.Nodup.getElem_inj_iff ok.noShare).1 he).symm
              show (h.lists.set (h.sums.getD a 0) (h.listOf a ++ h.summands v)).getD
                (h.sums.getD b 0) [] = h.lists.getD (h.sums.getD b 0) []
              rw [hga, hgb, List.getD_eq_getElem?_getD, List.getElem?_set_ne hneq,
                ← List.getD_eq_getElem?_getD]
          refine Or.inr ⟨_, rfl, ⟨ok.noShare, ?_, ?_, ok.env⟩, ?_⟩
          · intro l hl; simpa using ok.alloc l hl
          · intro b hb'
            rw [hlist b hb']
            split_ifs
            · simp [ok.nonempty a ha]
            · exact ok.nonempty b hb'
          · refine congrArg Except.ok ?_
            simp only [denote, SumSpec.mk.injEq, true_and]
            apply List.ext_getElem
            · simp
            · intro b hb1 hb2
              have hb' : b < h.sums.length := by simpa using hb2
              rw [List.getElem_set]
              have hv := hval y v hy
              have hvx := hval x _ hx
              simp only [List.getElem_map, List.getElem_range]
              by_cases hab : a = b
              · subst hab
                rw [if_pos rfl]
                have : h.denote.valOf (.ref a) + h.denote.valOf v
                    = fun i => ((h.listOf a ++ h.summands v).map fun t => t.toNumpy.get i).sum := by
                  rw [hv, hvx]
                  simp only [List.map_append, List.sum_append]
                  rfl
                refine Eq.trans this ?_
                funext i
                rw [hlist a hb', if_pos rfl]
              · rw [if_neg hab]
                funext i
                rw [hlist b hb', if_neg (fun e => hab e.symm)]

end SumHeap

namespace Props

/-- **C10.** For every program of `x += y`, `x = y`, `x = y + z` statements, run on a memory in
which no two lazy sums share a list object: the values of all objects are exactly those of the
ideal machine, in which `x += y` adds the value of `y` (taken before the statement, so `s += s`
doubles) to the one object bound to `x` — whatever other names are bound to it — and changes no
other object. -/
theorem C10 (h : SumHeap K) (ok : h.Ok) (prog : List Stmt) (hp : ∀ x y, Stmt.share x y ∉ prog) :
    (h.run prog).map SumHeap.denote = h.denote.run prog := by
  induction prog generalizing h with
  | nil => rfl
  | cons s prog ih =>
    simp only [SumHeap.run, SumSpec.run]
    rcases h.step_refines ok s (fun x y e => hp x y (by simp [e])) with ⟨e, h1, h2⟩ | ⟨h', h1, h2, h3⟩
    · rw [h1, h2]; rfl
    · rw [h1, h3]
      exact ih h' h2 (fun x y hm => hp x y (by simp [hm]))

/-- The invariant of C10 is kept by the same programs, so C10 applies to any later program too. -/
theorem C10_invariant (h h' : SumHeap K) (ok : h.Ok) (prog : List Stmt)
    (hp : ∀ x y, Stmt.share x y ∉ prog) (hr : h.run prog = .ok h') : h'.Ok := by
  induction prog generalizing h with
  | nil => cases hr; exact ok
  | cons s prog ih =>
    simp only [SumHeap.run] at hr
    rcases h.step_refines ok s (fun x y e => hp x y (by simp [e])) with ⟨e, h1, h2⟩ | ⟨h1', h1, h2, h3⟩
    · rw [h1] at hr; cases hr
    · rw [h1] at hr
      exact ih h1' h2 (fun x y hm => hp x y (by simp [hm])) hr

/-- A memory with two sums of a dense tensor, bound to the names 0 and 1. -/
def c10Heap : SumHeap ℤ :=
  ⟨fun x => if x < 2 then some (.ref x) else none, [0, 1],
    [[.dense (ND.ofFn [2] fun i => i.getD 0 0 + 1)], [.dense (ND.ofFn [2] fun _ => 5)]]⟩

/-- Non-vacuity: the memory meets the hypotheses of C10, and the program
`x = y; x += x; x += z` has the values C10 says. -/
example : c10Heap.Ok := by
  refine ⟨by simp [c10Heap], by simp [c10Heap], ?_, ?_⟩
  · intro a ha
    have : a = 0 ∨ a = 1 := by simp [c10Heap] at ha; omega
    rcases this with rfl | rfl <;> simp [c10Heap, SumHeap.listOf]
  · intro x a hx
    simp only [c10Heap] at hx ⊢
    split_ifs at hx with h
    · simp only [Option.some.injEq, Val.ref.injEq] at hx; simp; omega

example : ∃ h', c10Heap.run [.assign 2 0, .iadd 2 2, .iadd 2 1] = .ok h' ∧
    h'.denote.vals.map (fun f => f [1]) = [9, 5] := by
  refine ⟨_, rfl, ?_⟩
  simp [SumHeap.denote, c10Heap, SumHeap.listOf, SumHeap.summands, Function.update_apply,
    Leaf.toNumpy, ND.ofFn_get', List.range_succ]

/-- **C10, sharing.** The hypothesis is needed: after `b = TensorSum(a.tensors)` the statement
`a += c` also changes `b`. -/
theorem C10_shared_list : ∃ h', c10Heap.run [.share 2 0, .iadd 0 1] = .ok h' ∧
    h'.env 2 = some (.ref 2) ∧
    h'.denote.vals.map (fun f => f [1]) = [7, 5, 7] := by
  refine ⟨_, rfl, ?_, ?_⟩
  · simp [c10Heap, Function.update_apply]
  · simp [SumHeap.denote, c10Heap, SumHeap.listOf, SumHeap.summands, Function.update_apply,
      Leaf.toNumpy, ND.ofFn_get', List.range_succ]

end Props
end TTS
