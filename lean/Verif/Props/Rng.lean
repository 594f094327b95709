import Verif.Model.Rng
import Mathlib.Data.List.Nodup
import Mathlib.Data.Nat.Basic
import Mathlib.Algebra.Order.Ring.Nat
import Mathlib.Tactic.Ring
import Mathlib.Tactic.Linarith

/-!
# C23: the multithreaded random fill (`tt_sketch/utils.py` 178-227)
-/

namespace TTS.Props

open TTS.Rng

variable {K : Type*} {n threads : ℕ} {gens : ℕ → ℕ → K} {garbage : ℕ → K}

/-- the invariant of the fill -/
structure RngInv (n threads : ℕ) (gens : ℕ → ℕ → K) (st : State K) : Prop where
  bound : ∀ i, st.drawn i ≤ stepSize n threads
  vals : ∀ i < threads, ∀ k < st.drawn i, st.values (first n threads i + k) = gens i k
  mem : ∀ p, p ∈ st.log ↔ ∃ i < threads, ∃ k < st.drawn i, p = first n threads i + k
  lt : ∀ p ∈ st.log, p < n
  nodup : st.log.Nodup

theorem first_inj {i j k l : ℕ} (hk : k < stepSize n threads) (hl : l < stepSize n threads)
    (h : first n threads i + k = first n threads j + l) : i = j ∧ k = l := by
  unfold first at h
  have hs : 0 < stepSize n threads := by omega
  have hi : (i * stepSize n threads + k) / stepSize n threads = i := by
    rw [mul_comm, Nat.mul_add_div hs, Nat.div_eq_of_lt hk, add_zero]
  have hj : (j * stepSize n threads + l) / stepSize n threads = j := by
    rw [mul_comm, Nat.mul_add_div hs, Nat.div_eq_of_lt hl, add_zero]
  have : i = j := by rw [← hi, ← hj, h]
  subst this
  exact ⟨rfl, by omega⟩

theorem rngInv_step (st : State K) (h : RngInv n threads gens st) (w : ℕ) :
    RngInv n threads gens (step n threads gens st w) := by
  unfold step
  by_cases hc : w < threads ∧ first n threads w + st.drawn w < last n threads w
  · simp only [if_pos hc]
    obtain ⟨hw, hlt⟩ := hc
    have hdw : st.drawn w < stepSize n threads := by
      have : first n threads w + st.drawn w < (w + 1) * stepSize n threads :=
        lt_of_lt_of_le hlt (min_le_left _ _)
      unfold first at this
      rw [Nat.add_mul, one_mul] at this
      omega
    have hn : first n threads w + st.drawn w < n := lt_of_lt_of_le hlt (min_le_right _ _)
    refine ⟨?_, ?_, ?_, ?_, ?_⟩
    · intro i
      simp only
      split
      · rename_i h1; subst h1; omega
      · exact h.bound i
    · intro i hi k hk
      simp only at hk ⊢
      by_cases hiw : i = w
      · subst hiw
        rw [if_pos rfl] at hk
        by_cases hkd : k = st.drawn i
        · subst hkd; simp
        · rw [if_neg (by omega)]
          exact h.vals i hi k (by omega)
      · rw [if_neg hiw] at hk
        rw [if_neg]
        · exact h.vals i hi k hk
        · intro he
          exact hiw (first_inj (lt_of_lt_of_le hk (h.bound i)) hdw he).1
    · intro p
      simp only [List.mem_cons, h.mem]
      constructor
      · rintro (rfl | ⟨i, hi, k, hk, rfl⟩)
        · exact ⟨w, hw, st.drawn w, by simp, rfl⟩
        · refine ⟨i, hi, k, ?_, rfl⟩
          split
          · omega
          · exact hk
      · rintro ⟨i, hi, k, hk, rfl⟩
        by_cases hiw : i = w
        · subst hiw
          rw [if_pos rfl] at hk
          by_cases hkd : k = st.drawn i
          · left; rw [hkd]
          · right; exact ⟨i, hi, k, by omega, rfl⟩
        · rw [if_neg hiw] at hk
          right; exact ⟨i, hi, k, hk, rfl⟩
    · intro p hp
      rcases List.mem_cons.1 hp with rfl | hp
      · exact hn
      · exact h.lt p hp
    · refine List.nodup_cons.2 ⟨?_, h.nodup⟩
      rw [h.mem]
      rintro ⟨i, hi, k, hk, he⟩
      obtain ⟨rfl, rfl⟩ := first_inj hdw (lt_of_lt_of_le hk (h.bound i)) he
      omega
  · simp only [if_neg hc]; exact h

theorem rngInv_run (sched : List ℕ) : RngInv n threads gens (run n threads gens garbage sched) := by
  unfold run
  have h0 : RngInv n threads gens (init garbage) :=
    ⟨by simp [init], by simp [init], by simp [init], by simp [init], by simp [init]⟩
  generalize init garbage = st at h0
  induction sched generalizing st with
  | nil => exact h0
  | cons w ws ih => exact ih _ (rngInv_step st h0 w)

theorem div_lt_threads (hT : 0 < threads) {p : ℕ} (hp : p < n) :
    0 < stepSize n threads ∧ p / stepSize n threads < threads := by
  have hs : 0 < stepSize n threads := Nat.div_pos (by omega) hT
  refine ⟨hs, ?_⟩
  rw [Nat.div_lt_iff_lt_mul hs]
  have : n ≤ threads * stepSize n threads := by
    have h1 := Nat.div_add_mod (n + threads - 1) threads
    have h2 := Nat.mod_lt (n + threads - 1) hT
    unfold stepSize
    omega
  omega

/-- C23: under every schedule of the worker threads in which all of them finish (which is what
`concurrent.futures.wait` waits for), the array does not depend on the schedule nor on its initial
contents: position `p` holds draw `p mod step` of generator `p div step`; and every position is
written exactly once, none outside the array. -/
theorem C23 (hT : 0 < threads) (sched : List ℕ)
    (hf : Finished n threads (run n threads gens garbage sched)) :
    (∀ p < n, (run n threads gens garbage sched).values p
      = gens (p / stepSize n threads) (p % stepSize n threads)) ∧
    (∀ p, (run n threads gens garbage sched).log.count p = if p < n then 1 else 0) := by
  have h := rngInv_run (n := n) (threads := threads) (gens := gens) (garbage := garbage) sched
  have key : ∀ p < n, p / stepSize n threads < threads ∧
      p % stepSize n threads < (run n threads gens garbage sched).drawn (p / stepSize n threads) ∧
      p = first n threads (p / stepSize n threads) + p % stepSize n threads := by
    intro p hp
    obtain ⟨hs, hlt⟩ := div_lt_threads hT hp
    have e : p = first n threads (p / stepSize n threads) + p % stepSize n threads :=
      (Nat.div_add_mod' p _).symm
    refine ⟨hlt, ?_, e⟩
    have h1 := hf _ hlt
    have h2 : p < last n threads (p / stepSize n threads) := by
      refine lt_min ?_ hp
      rw [Nat.add_mul, one_mul]
      have := Nat.mod_lt p hs
      unfold first at e
      omega
    omega
  constructor
  · intro p hp
    obtain ⟨h1, h2, h3⟩ := key p hp
    conv_lhs => rw [h3]
    exact h.vals _ h1 _ h2
  · intro p
    by_cases hp : p < n
    · rw [if_pos hp]
      obtain ⟨h1, h2, h3⟩ := key p hp
      exact List.count_eq_one_of_mem h.nodup ((h.mem p).2 ⟨_, h1, _, h2, h3⟩)
    · rw [if_neg hp]
      exact List.count_eq_zero_of_not_mem fun hm => hp (h.lt p hm)

/-- C23, corollary: two complete runs under different schedules give the same array. -/
theorem C23_schedule_independent (hT : 0 < threads) (s₁ s₂ : List ℕ) (g₁ g₂ : ℕ → K)
    (h₁ : Finished n threads (run n threads gens g₁ s₁))
    (h₂ : Finished n threads (run n threads gens g₂ s₂)) (p : ℕ) (hp : p < n) :
    (run n threads gens g₁ s₁).values p = (run n threads gens g₂ s₂).values p := by
  rw [(C23 hT s₁ h₁).1 p hp, (C23 hT s₂ h₂).1 p hp]

/-- Progress: a schedule that gives every worker at least `step` turns finishes, so the hypothesis
of C23 is met by every fair schedule. -/
theorem C23_finishes (sched : List ℕ) (h : ∀ i < threads, stepSize n threads ≤ sched.count i) :
    Finished n threads (run n threads gens garbage sched) := by
  have hrev : ∀ (s : List ℕ) (i : ℕ), i < threads →
      last n threads i ≤ first n threads i + (s.foldr (fun w st => step n threads gens st w)
        (init garbage)).drawn i ∨
      s.count i ≤ (s.foldr (fun w st => step n threads gens st w) (init garbage)).drawn i := by
    intro s
    induction s with
    | nil => intro i _; right; simp
    | cons w s ih =>
      intro i hi
      simp only [List.foldr_cons]
      generalize s.foldr (fun w st => step n threads gens st w) (init garbage) = st at ih
      unfold step
      by_cases hc : w < threads ∧ first n threads w + st.drawn w < last n threads w
      · simp only [if_pos hc]
        rcases ih i hi with h1 | h1
        · left; split <;> omega
        · right
          by_cases hwi : w = i
          · subst hwi; rw [List.count_cons_self]; simp; exact h1
          · rw [List.count_cons_of_ne hwi, if_neg (fun h => hwi h.symm)]; exact h1
      · simp only [if_neg hc]
        rcases ih i hi with h1 | h1
        · left; exact h1
        · by_cases hwi : w = i
          · subst hwi; left; omega
          · right; rw [List.count_cons_of_ne hwi]; exact h1
  intro i hi
  have e : run n threads gens garbage sched
      = sched.reverse.foldr (fun w st => step n threads gens st w) (init garbage) := by
    unfold run; rw [List.foldr_reverse]
  rw [e]
  rcases hrev sched.reverse i hi with h1 | h1
  · exact h1
  · rw [List.count_reverse] at h1
    have h2 := h i hi
    have h3 : last n threads i ≤ (i + 1) * stepSize n threads := min_le_left _ _
    rw [Nat.add_mul, one_mul] at h3
    have h4 : first n threads i = i * stepSize n threads := rfl
    omega

/-- A concrete complete schedule with interleaving, ragged last slice (`n = 5`, 3 threads). -/
example : Finished 5 3 (run 5 3 (fun i k => (i, k)) (fun _ => (9, 9)) [2, 0, 1, 1, 0, 2]) :=
  C23_finishes _ (by decide)

/-- The result does depend on the number of threads (the default is the number of CPUs), so the
same seed can give different arrays on different machines. -/
theorem C23_thread_dependence (g₁ g₂ : ℕ → K) (s₁ s₂ : List ℕ)
    (h₁ : Finished 2 1 (run 2 1 gens g₁ s₁)) (h₂ : Finished 2 2 (run 2 2 gens g₂ s₂))
    (hg : gens 0 1 ≠ gens 1 0) :
    (run 2 1 gens g₁ s₁).values 1 ≠ (run 2 2 gens g₂ s₂).values 1 := by
  rw [(C23 (by decide) s₁ h₁).1 1 (by decide), (C23 (by decide) s₂ h₂).1 1 (by decide)]
  exact hg

end TTS.Props
