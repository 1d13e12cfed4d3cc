import Verif.Props.ThinningReduce
import Verif.Props.ThinningRate
import Verif.Lemmas.PSD

/-!
# C50: the recursion of kernel thinning reuses its random draws

Every call of `kt_half` starts from `self.random_key` (`/repo/coreax/solvers/coresubset.py:1646`), so all halvings of
`kt_half_recursive` see the same draws.  One halving is unbiased (`C50_unbiased`), two in a row are not.
-/

set_option linter.unusedSectionVars false

namespace Coreax

open Spec

section
variable {X K : Type*} [Field K] [LinearOrder K] [IsStrictOrderedRing K]

theorem pairAt_one {h : ℕ} (i : Fin h) (b : Bool) (hp : ((pairAt i b : Fin (2 * h)) : ℕ) = 1) : (i : ℕ) = 0 := by
  cases b <;> simp [pairAt] at hp <;> omega

/-- The first pair of every halving is swapped iff the first draw is at most one half. -/
theorem C50_first_pair {h : ℕ} [NeZero (2 * h)] (root : K → K) (hroot : ∀ v, 0 ≤ v → root v * root v = v) (k : X → X → K)
    (c : K) (u : ℕ → K) (x : Fin (2 * h) → X)
    (hd : ∀ i : Fin h, 0 < k (x (pairAt i false)) (x (pairAt i false)) + k (x (pairAt i true)) (x (pairAt i true))
      - 2 * k (x (pairAt i false)) (x (pairAt i true))) (i : Fin h) (hi : (i : ℕ) = 0) :
    (ktHalf root k (Ext.fin c) u x).1 i = if u 0 ≤ 1 / 2 then 1 else 0 := by
  obtain ⟨s, e, -, hall⟩ := C19_swap_rule root hroot k c u x hd
  obtain ⟨-, -, h1, -, h2⟩ := hall i
  have himb : imbalance k x e i = 0 := by
    unfold imbalance
    refine Finset.sum_eq_zero fun t ht => ?_
    have : t < i := by simpa using ht
    rw [Fin.lt_def] at this
    omega
  rw [himb, zero_div, sub_zero, mul_one, hi] at h2
  rw [h1, pairAt_coe, hi]
  by_cases hu : u 0 ≤ 1 / 2
  · rw [if_pos hu, h2.2 hu]; simp
  · rw [if_neg hu]
    have : e i = false := by
      cases he : e i
      · rfl
      · exact absurd (h2.1 he) hu
    rw [this]; simp

variable {n : ℕ} [NeZero n] {size : ℕ} [NeZero size]

/-- With two or more halvings, row `1` of the dataset is in none of the candidates that descend from the first half of the
first half, whatever the draws: the same draw that moves it to the first half moves it out of the first quarter.  (With
fresh draws for every halving it would be there with probability one quarter.) -/
theorem C50_key_reuse (root : K → K) (hroot : ∀ v, 0 ≤ v → root v * root v = v) (k : X → X → K) (c : K) (u : ℕ → K)
    (d : Fin n → X) (hd : ∀ i j, i ≠ j → 0 < k (d i) (d i) + k (d j) (d j) - 2 * k (d i) (d j)) (m : ℕ)
    (hm : size * 2 ^ (m + 2) ≤ n) (cand : Fin size → ℤ)
    (hc : cand ∈ (ktPartition (size := size) root k (Ext.fin c) u d (m + 2)).take (2 ^ m)) (t : Fin size) : cand t ≠ 1 := by
  set x := fun t : Fin (2 * ktRows size (m + 1)) => d (gatherIdx n ((t : ℕ) : ℤ)) with hx
  obtain ⟨e, σ, -, hrun, -⟩ := ktHalf_run root k (Ext.fin c) u x
  set x' := fun t : Fin (2 * ktRows size m) => d (gatherIdx n ((ktHalf root k (Ext.fin c) u x).1 t)) with hx'
  obtain ⟨e', σ', -, hrun', -⟩ := ktHalf_run root k (Ext.fin c) u x'
  have hrows : 2 * ktRows size (m + 1) ≤ n := by
    have := ktRows_eq size (m + 2)
    rw [show ktRows size (m + 2) = 2 * ktRows size (m + 1) from rfl] at this
    omega
  -- distinct rows are at positive distance
  have hgn : ∀ a : ℕ, (ha : a < n) → gatherIdx n (a : ℤ) = ⟨a, ha⟩ := fun a ha => gatherIdx_coe (⟨a, ha⟩ : Fin n)
  have hd1 : ∀ i : Fin (ktRows size (m + 1)), 0 < k (x (pairAt i false)) (x (pairAt i false))
      + k (x (pairAt i true)) (x (pairAt i true)) - 2 * k (x (pairAt i false)) (x (pairAt i true)) := by
    intro i
    refine hd _ _ ?_
    have hf := (pairAt i false : Fin (2 * ktRows size (m + 1))).2
    have ht := (pairAt i true : Fin (2 * ktRows size (m + 1))).2
    rw [hgn _ (by omega), hgn _ (by omega)]
    simp [pairAt]
  have hval : ∀ j : Fin (ktRows size (m + 1)), (ktHalf root k (Ext.fin c) u x).1 j
      = ((pairAt j (e j) : Fin (2 * ktRows size (m + 1))) : ℕ) := by
    intro j
    rw [hrun]
  have hd2 : ∀ i : Fin (ktRows size m), 0 < k (x' (pairAt i false)) (x' (pairAt i false))
      + k (x' (pairAt i true)) (x' (pairAt i true)) - 2 * k (x' (pairAt i false)) (x' (pairAt i true)) := by
    intro i
    refine hd _ _ ?_
    have h1 := (pairAt (pairAt i false : Fin (ktRows size (m + 1))) (e (pairAt i false : Fin (2 * ktRows size m))) :
      Fin (2 * ktRows size (m + 1))).2
    have h2 := (pairAt (pairAt i true : Fin (ktRows size (m + 1))) (e (pairAt i true : Fin (2 * ktRows size m))) :
      Fin (2 * ktRows size (m + 1))).2
    have q1 := hval (pairAt i false : Fin (2 * ktRows size m))
    have q2 := hval (pairAt i true : Fin (2 * ktRows size m))
    rw [q1, q2, hgn _ (by omega), hgn _ (by omega)]
    intro heq
    have hne := congrArg Fin.val heq
    have : pairAt (pairAt i false : Fin (ktRows size (m + 1))) (e (pairAt i false : Fin (2 * ktRows size m)))
        = pairAt (pairAt i true : Fin (ktRows size (m + 1))) (e (pairAt i true : Fin (2 * ktRows size m))) := Fin.ext hne
    have := (pairAt_inj this).1
    exact absurd (pairAt_inj this).2 (by simp)
  -- the candidates
  have hpart : ktPartition (size := size) root k (Ext.fin c) u d (m + 2)
      = (ktHalfRecursive root k (Ext.fin c) u d m (fun t => (ktHalf root k (Ext.fin c) u x).1
            (gatherIdx (2 * ktRows size m) ((ktHalf root k (Ext.fin c) u x').1 t))) ++
        ktHalfRecursive root k (Ext.fin c) u d m (fun t => (ktHalf root k (Ext.fin c) u x).1
            (gatherIdx (2 * ktRows size m) ((ktHalf root k (Ext.fin c) u x').2 t)))) ++
        ktHalfRecursive root k (Ext.fin c) u d (m + 1) (ktHalf root k (Ext.fin c) u x).2 := rfl
  obtain ⟨hlen, hperm⟩ := ktHalfRecursive_perm root k (Ext.fin c) u d m (fun t => (ktHalf root k (Ext.fin c) u x).1
            (gatherIdx (2 * ktRows size m) ((ktHalf root k (Ext.fin c) u x').1 t)))
  rw [hpart, List.append_assoc, List.take_left' hlen] at hc
  have hmem : cand t ∈ List.ofFn (fun t => (ktHalf root k (Ext.fin c) u x).1
            (gatherIdx (2 * ktRows size m) ((ktHalf root k (Ext.fin c) u x').1 t))) :=
    hperm.subset (List.mem_flatMap.2 ⟨cand, hc, List.mem_ofFn.2 ⟨t, rfl⟩⟩)
  obtain ⟨s, hs⟩ := List.mem_ofFn.1 hmem
  intro h1
  rw [h1] at hs
  have hs' : (ktHalf root k (Ext.fin c) u x').1 s = ((pairAt s (e' s) : Fin (2 * ktRows size m)) : ℤ) := by rw [hrun']
  simp only [hs', gatherIdx_coe] at hs
  -- position 0 of the first half holds row 1
  have hpos : ((pairAt s (e' s) : Fin (2 * ktRows size m)) : ℕ) = 0 := by
    have hv := hval (pairAt s (e' s) : Fin (2 * ktRows size m))
    rw [hv] at hs
    have hs1 : ((pairAt (pairAt s (e' s) : Fin (ktRows size (m + 1))) (e (pairAt s (e' s) : Fin (2 * ktRows size m))) :
      Fin (2 * ktRows size (m + 1))) : ℕ) = 1 := by exact_mod_cast hs
    exact pairAt_one _ _ hs1
  have f1 := C50_first_pair root hroot k c u x hd1 (pairAt s (e' s) : Fin (2 * ktRows size m)) hpos
  have hs0 : (s : ℕ) = 0 := by simp only [pairAt] at hpos; omega
  have f2 := C50_first_pair root hroot k c u x' hd2 s hs0
  rw [hs'] at f2
  have hpos' : ((pairAt s (e' s) : Fin (2 * ktRows size m)) : ℤ) = 0 := by exact_mod_cast hpos
  rw [hpos'] at f2
  have hs2 : (ktHalf root k (Ext.fin c) u x).1 (pairAt s (e' s) : Fin (2 * ktRows size m)) = 1 := hs
  rw [f1] at hs2
  by_cases hu : u 0 ≤ 1 / 2
  · rw [if_pos hu] at f2; norm_num at f2
  · rw [if_neg hu] at hs2; norm_num at hs2

end

/-! ### Concrete cases -/

/-- Nine real numbers, the linear kernel, two halvings to candidates of two rows: row `1` is missing from the first. -/
example (u : ℕ → ℝ) (c : ℝ) (cand : Fin 2 → ℤ)
    (hc : cand ∈ (ktPartition (n := 9) (size := 2) Real.sqrt (fun a b : ℝ => a * b) (Ext.fin c) u (fun i => (i : ℝ)) 2).take 1)
    (t : Fin 2) : cand t ≠ 1 := by
  refine C50_key_reuse (n := 9) (size := 2) Real.sqrt (fun v hv => Real.mul_self_sqrt hv) (fun a b : ℝ => a * b) c u
    (fun i => (i : ℝ)) (fun i j hij => ?_) 0 (by norm_num) cand hc t
  have hne : ((i : ℕ) : ℝ) - ((j : ℕ) : ℝ) ≠ 0 := by
    rw [sub_ne_zero]
    exact_mod_cast fun hh => hij (Fin.ext hh)
  have := mul_self_pos.2 hne
  nlinarith

/-- The linear kernel on the real line is positive semi-definite. -/
theorem isPSD_mul_real : IsPSD (fun a b : ℝ => a * b) := isPSD_rankOne fun a : ℝ => a

/-- Pairs of neighbours `2 i`, `2 i + 1` on the real line are at distance one. -/
theorem line_dist {h : ℕ} (i : Fin h) :
    (((pairAt i false : Fin (2 * h)) : ℕ) : ℝ) * ((pairAt i false : Fin (2 * h)) : ℕ)
      + (((pairAt i true : Fin (2 * h)) : ℕ) : ℝ) * ((pairAt i true : Fin (2 * h)) : ℕ)
      - 2 * ((((pairAt i false : Fin (2 * h)) : ℕ) : ℝ) * ((pairAt i true : Fin (2 * h)) : ℕ)) = 1 := by
  simp only [pairAt, Bool.false_eq_true, if_false, if_true, add_zero]
  push_cast
  ring

/-- One million numbers `0, 1, 2, …` halved with `δ = 10⁻⁹`: the mean of the first half is within `√(2 log 20) κ / 10⁶` of
the mean, with probability at least `1 - 0.1 - 0.0005`. -/
example : (uniformDraws 500000).real {u | ¬ |avg (fun _ => 1) (fun i => ∑ _j : Fin 1, (1 : ℝ) * ((gatherIdx (2 * 500000)
          ((ktHalf (h := 500000) Real.sqrt (fun a b : ℝ => a * b) (Ext.fin (Real.sqrt (2 * Real.log (2 / 10 ^ (-9 : ℤ)))))
            (drawSeq u) (fun i => ((i : ℕ) : ℝ))).1 i) : ℕ) * (1 : ℝ)))
        - avg (fun _ => 1) (fun i : Fin (2 * 500000) => ∑ _j : Fin 1, (1 : ℝ) * (((i : ℕ) : ℝ) * 1))|
      < 1 * ((Real.sqrt (2 * Real.log (2 / 10 ^ (-9 : ℤ))) + 1 / Real.sqrt (2 * Real.log (2 / 10 ^ (-9 : ℤ)))) / 2) * 1
        * Real.sqrt (2 * Real.log (2 / (1 / 10))) / (2 * (500000 : ℕ))} ≤ 1 / 10 + (500000 : ℕ) * (10 : ℝ) ^ (-9 : ℤ) :=
  C50_integration_error (h := 500000) (fun a b : ℝ => a * b) isPSD_mul_real (10 ^ (-9 : ℤ)) (by positivity) (by norm_num)
    (fun i => ((i : ℕ) : ℝ)) (fun i => by rw [line_dist]; exact one_pos) 1 zero_le_one (fun i => by rw [line_dist]; norm_num)
    (fun _ : Fin 1 => (1 : ℝ)) (fun _ => 1) 1 one_pos (by simp) (1 / 10) (by norm_num) (by norm_num)

/-- The hypotheses of the expectation theorems are met by the same data. -/
example (c : ℝ) (f : Fin (2 * 3) → ℝ) :
    ∫ u, avg (fun _ => 1) (fun t => f (gatherIdx (2 * 3) ((ktHalf (h := 3) Real.sqrt (fun a b : ℝ => a * b) (Ext.fin c) (drawSeq u)
      (fun i => ((i : ℕ) : ℝ))).1 t))) ∂(uniformDraws 3) = avg (fun _ => 1) f :=
  C50_unbiased (h := 3) _ isPSD_mul_real c _ (fun i => by rw [line_dist]; exact one_pos) f

example (c : ℝ) : ∫ u, mmdSq (fun a b : ℝ => a * b)
      (fun t => ((gatherIdx (2 * 3) ((ktHalf (h := 3) Real.sqrt (fun a b : ℝ => a * b) (Ext.fin c) (drawSeq u)
        (fun i => ((i : ℕ) : ℝ))).1 t) : ℕ) : ℝ)) (fun _ => 1)
      (fun t => ((gatherIdx (2 * 3) ((ktHalf (h := 3) Real.sqrt (fun a b : ℝ => a * b) (Ext.fin c) (drawSeq u)
        (fun i => ((i : ℕ) : ℝ))).2 t) : ℕ) : ℝ)) (fun _ => 1) ∂(uniformDraws 3) ≤ 1 / 3 := by
  refine (C50_expected_balance (h := 3) _ isPSD_mul_real c (fun i => ((i : ℕ) : ℝ)) (fun i => by rw [line_dist]; exact one_pos)).trans
    (le_of_eq ?_)
  simp only [line_dist]
  norm_num

example (u : ℕ → ℝ) := C50_first_pair (h := 2) Real.sqrt (fun v hv => Real.mul_self_sqrt hv) (fun a b : ℝ => a * b) 2 u ![0, 1, 3, 5] (fun i => by
  fin_cases i
  · change 0 < (0 : ℝ) * 0 + 1 * 1 - 2 * (0 * 1)
    norm_num
  · change 0 < (3 : ℝ) * 3 + 5 * 5 - 2 * (3 * 5)
    norm_num) 0 rfl

end Coreax
