import Verif.Lemmas.Thinning
import Verif.Props.HerdingLaws
import Verif.Props.Metrics
import Verif.Props.Random

/-!
# Kernel thinning: halving, partition, choice (C19, C20)
-/

set_option linter.unusedSectionVars false

namespace Coreax

open Spec

section Half
variable {X K : Type*} [Field K] [LinearOrder K] [IsStrictOrderedRing K] {h : ℕ}

/-- Each step of `kt_half` splits one pair of consecutive points, whatever the draws and the kernel. -/
theorem C19_half_pairs [NeZero (2 * h)] (root : K → K) (k : X → X → K) (c : Ext K) (u : ℕ → K) (x : Fin (2 * h) → X)
    (i : Fin h) :
    ((ktHalf root k c u x).1 i = 2 * (i : ℤ) ∧ (ktHalf root k c u x).2 i = 2 * (i : ℤ) + 1) ∨
      ((ktHalf root k c u x).1 i = 2 * (i : ℤ) + 1 ∧ (ktHalf root k c u x).2 i = 2 * (i : ℤ)) := by
  obtain ⟨e, σ, -, hrun, -⟩ := ktHalf_run root k c u x
  rw [hrun]
  simp only [pairAt_coe]
  cases e i <;> simp

/-- The two halves are a partition: together they list every index exactly once. -/
theorem C19_half_partition [NeZero (2 * h)] (root : K → K) (k : X → X → K) (c : Ext K) (u : ℕ → K) (x : Fin (2 * h) → X) :
    (List.ofFn (ktHalf root k c u x).1 ++ List.ofFn (ktHalf root k c u x).2).Perm
      ((List.range (2 * h)).map (fun a : ℕ => (a : ℤ))) := by
  obtain ⟨e, σ, -, hrun, -⟩ := ktHalf_run root k c u x
  rw [hrun]
  have := perm_halves (fun t : Fin (2 * h) => ((t : ℕ) : ℤ)) e
  refine this.trans (List.Perm.of_eq ?_)
  exact ofFn_range _

/-- The swapping rule when the members of every pair are at positive kernel distance: the parameters follow the recursion
of the paper, and the pair `i` is swapped iff the draw is at most `(1 - α / a) / 2`, where `α` is the signed imbalance of
the pairs before `i`. -/
theorem C19_swap_rule [NeZero (2 * h)] (root : K → K) (hroot : ∀ v, 0 ≤ v → root v * root v = v) (k : X → X → K) (c : K)
    (u : ℕ → K) (x : Fin (2 * h) → X)
    (hd : ∀ i : Fin h, 0 < k (x (pairAt i false)) (x (pairAt i false)) + k (x (pairAt i true)) (x (pairAt i true))
      - 2 * k (x (pairAt i false)) (x (pairAt i true))) :
    ∃ (s : ℕ → K) (e : Fin h → Bool), s 0 = 0 ∧ ∀ i : Fin h,
      let b := root (k (x (pairAt i false)) (x (pairAt i false)) + k (x (pairAt i true)) (x (pairAt i true))
        - 2 * k (x (pairAt i false)) (x (pairAt i true)))
      let a := max (b * s i * c) (b ^ 2)
      0 < a ∧ s (i + 1) = root (s i ^ 2 + max (b ^ 2 * (1 + (b ^ 2 - 2 * a) * s i ^ 2 / a ^ 2)) 0) ∧
      (ktHalf root (k := k) (Ext.fin c) u x).1 i = ((pairAt i (e i) : Fin (2 * h)) : ℤ) ∧
      (ktHalf root (k := k) (Ext.fin c) u x).2 i = ((pairAt i (!e i) : Fin (2 * h)) : ℤ) ∧
      (e i = true ↔ u i ≤ 1 / 2 * (1 - imbalance k x e i / a)) := by
  obtain ⟨e, σ, h0, hrun, hall⟩ := ktHalf_run root k (Ext.fin c) u x
  set dd := fun i : Fin h => k (x (pairAt i false)) (x (pairAt i false)) + k (x (pairAt i true)) (x (pairAt i true))
      - 2 * k (x (pairAt i false)) (x (pairAt i true)) with hdd
  have hb : ∀ i, pairDist root k x i = Ext.fin (root (dd i)) := by
    intro i
    unfold pairDist ktDistance
    simp only [Ext.sqrt]
    rw [if_neg (not_lt.2 (hd i).le)]
  have ha : ∀ (i : Fin h) (s : K), ktA (Ext.fin c) (pairDist root k x i) (Ext.fin s)
      = Ext.fin (max (root (dd i) * s * c) (root (dd i) ^ 2)) := by
    intro i s
    rw [ktA, hb, Ext.fin_mul_fin, Ext.fin_mul_fin, Ext.fin_mul_fin, Ext.maximum_fin, sq]
  have hapos : ∀ (i : Fin h) (s : K), 0 < max (root (dd i) * s * c) (root (dd i) ^ 2) := by
    intro i s
    refine lt_of_lt_of_le ?_ (le_max_right _ _)
    rw [sq, hroot _ (hd i).le]; exact hd i
  have hfin : ∀ i : ℕ, i ≤ h → ∃ s, σ i = Ext.fin s := by
    intro i
    induction i with
    | zero => exact fun _ => ⟨0, h0⟩
    | succ i ih =>
      intro hi
      obtain ⟨s, hs⟩ := ih (by omega)
      obtain ⟨hσ, -⟩ := hall ⟨i, by omega⟩
      rw [show ((⟨i, by omega⟩ : Fin h) : ℕ) = i from rfl, hs, ha, hb] at hσ
      rw [ktSigma_fin _ _ _ _ (hapos _ _)] at hσ
      exact ⟨_, hσ⟩
  have hex : ∃ s : ℕ → K, ∀ i, i ≤ h → σ i = Ext.fin (s i) := by
    refine ⟨fun i => if hi : i ≤ h then (hfin i hi).choose else 0, fun i hi => ?_⟩
    simp only [hi, dif_pos]
    exact (hfin i hi).choose_spec
  obtain ⟨s, hs⟩ := hex
  refine ⟨s, e, ?_, fun i => ?_⟩
  · have := hs 0 (by omega)
    rw [h0] at this
    exact (Ext.fin.inj this).symm
  · intro b a
    obtain ⟨hσ, he⟩ := hall i
    rw [hs i i.2.le, ha] at he
    rw [hs i i.2.le, ha, hb, ktSigma_fin _ _ _ _ (hapos _ _), hs (i + 1) (by have := i.2; omega)] at hσ
    refine ⟨hapos _ _, Ext.fin.inj hσ, by rw [hrun], by rw [hrun], ?_⟩
    rw [he, ktSwap_fin _ _ _ (hapos _ _)]

/-- A pair of equal points makes the parameter `sigma` NaN: neither that pair nor any later one is ever swapped, whatever
the draws (a defect of `kt_half`; the method of the paper continues with the old parameter). -/
theorem C19_duplicate_stops_swapping [NeZero (2 * h)] (root : K → K) (hroot : root 0 = 0) (k : X → X → K) (c : Ext K)
    (u : ℕ → K) (x : Fin (2 * h) → X) (i : Fin h) (hdup : x (pairAt i false) = x (pairAt i true)) (j : Fin h) (hij : i ≤ j) :
    (ktHalf root k c u x).1 j = 2 * (j : ℤ) ∧ (ktHalf root k c u x).2 j = 2 * (j : ℤ) + 1 := by
  obtain ⟨e, σ, h0, hrun, hall⟩ := ktHalf_run root k c u x
  have hb : pairDist root k x i = Ext.fin 0 := by
    unfold pairDist ktDistance
    rw [hdup]
    have : k (x (pairAt i true)) (x (pairAt i true)) + k (x (pairAt i true)) (x (pairAt i true))
      - 2 * k (x (pairAt i true)) (x (pairAt i true)) = 0 := by ring
    rw [this]
    simp [Ext.sqrt, hroot]
  have himb : imbalance k x e i = 0 := by
    unfold imbalance
    simp [hdup]
  have hi := hall i
  have hcase : ktA c (Ext.fin 0) (σ i) = Ext.nan ∨ (ktA c (Ext.fin 0) (σ i) = Ext.fin 0 ∧ ∃ s, σ i = Ext.fin s) :=
    ktA_zero c (σ i)
  have h1 : e i = false ∧ σ (i + 1) = Ext.nan := by
    rw [hb, himb] at hi
    rcases hcase with ha | ⟨ha, s, hs⟩
    · rw [ha] at hi
      exact ⟨by rw [hi.2, ktSwap_nan], by rw [hi.1, ktSigma_nan_a]⟩
    · rw [ha] at hi
      refine ⟨by rw [hi.2, ktSwap_zero], ?_⟩
      rw [hi.1, hs, ktSigma_zero]
  have hnan : ∀ d : ℕ, (i : ℕ) + 1 + d ≤ h → σ (i + 1 + d) = Ext.nan := by
    intro d
    induction d with
    | zero => exact fun _ => h1.2
    | succ d ih =>
      intro hd
      have := (hall ⟨i + 1 + d, by omega⟩).1
      rw [show ((⟨i + 1 + d, by omega⟩ : Fin h) : ℕ) = i + 1 + d from rfl, ih (by omega), ktA_nan, ktSigma_nan_a] at this
      exact this
  have hej : e j = false := by
    by_cases hji : j = i
    · rw [hji]; exact h1.1
    · have hlt : (i : ℕ) < j := lt_of_le_of_ne hij (fun hh => hji (Fin.ext hh.symm))
      obtain ⟨d, hd⟩ := Nat.exists_eq_add_of_le (Nat.succ_le_of_lt hlt)
      have hσ := hnan d (by have := j.2; omega)
      rw [show (i : ℕ) + 1 + d = j by omega] at hσ
      rw [(hall j).2, hσ, ktA_nan, ktSwap_nan]
  rw [hrun]
  simp only [hej, pairAt_coe]
  simp

/-- One step of the signed energy. -/
theorem signed_energy_step (D : Fin h → Fin h → K) (hD : ∀ s t, D s t = D t s) (i : Fin h) :
    ∑ s ∈ Finset.univ.filter (fun s : Fin h => (s : ℕ) < (i : ℕ) + 1), ∑ t ∈ Finset.univ.filter (fun t : Fin h => (t : ℕ) < (i : ℕ) + 1), D s t
      = ∑ s ∈ Finset.univ.filter (fun s : Fin h => (s : ℕ) < (i : ℕ)), ∑ t ∈ Finset.univ.filter (fun t : Fin h => (t : ℕ) < (i : ℕ)), D s t
        + 2 * ∑ t ∈ Finset.univ.filter (fun t : Fin h => t < i), D t i + D i i := by
  have hf : Finset.univ.filter (fun s : Fin h => (s : ℕ) < (i : ℕ) + 1)
      = insert i (Finset.univ.filter (fun s : Fin h => (s : ℕ) < (i : ℕ))) := by
    ext s
    simp only [Finset.mem_filter, Finset.mem_univ, true_and, Finset.mem_insert, Fin.ext_iff]
    omega
  have hni : i ∉ Finset.univ.filter (fun s : Fin h => (s : ℕ) < (i : ℕ)) := by simp
  have hlt : Finset.univ.filter (fun t : Fin h => t < i) = Finset.univ.filter (fun s : Fin h => (s : ℕ) < (i : ℕ)) := by
    exact Finset.filter_congr fun s _ => Iff.rfl
  rw [hf, Finset.sum_insert hni, Finset.sum_insert hni, hlt]
  have h2 : ∀ s, ∑ t ∈ insert i (Finset.univ.filter (fun s : Fin h => (s : ℕ) < (i : ℕ))), D s t
      = D s i + ∑ t ∈ Finset.univ.filter (fun s : Fin h => (s : ℕ) < (i : ℕ)), D s t := fun s => Finset.sum_insert hni
  rw [Finset.sum_congr rfl (fun s _ => h2 s), Finset.sum_add_distrib, Finset.sum_congr rfl (fun t _ => hD i t)]
  ring

/-- What the swaps control: the squared MMD between the two halves is the sum over the pairs of the squared kernel
distance, plus twice the imbalance for a swapped pair, minus twice the imbalance for a pair left in place.  (The rule
swaps with probability above one half exactly when the imbalance is negative.) -/
theorem C19_balance [NeZero (2 * h)] (root : K → K) (sk : X → X → K) (c : Ext K) (u : ℕ → K) (x : Fin (2 * h) → X)
    (k : X → X → K) (hk : ∀ a b, k a b = k b a) :
    ∃ e : Fin h → Bool, (∀ i, e i = true ↔ (ktHalf root sk c u x).1 i = 2 * (i : ℤ) + 1) ∧
      (h : K) ^ 2 * mmdSq k (fun t => x (gatherIdx (2 * h) ((ktHalf root sk c u x).1 t))) (fun _ => 1)
          (fun t => x (gatherIdx (2 * h) ((ktHalf root sk c u x).2 t))) (fun _ => 1)
        = ∑ i : Fin h, (k (x (pairAt i false)) (x (pairAt i false)) + k (x (pairAt i true)) (x (pairAt i true))
            - 2 * k (x (pairAt i false)) (x (pairAt i true)) + (if e i then 2 else -2) * imbalance k x e i) := by
  obtain ⟨e, σ, -, hrun, -⟩ := ktHalf_run root sk c u x
  refine ⟨e, fun i => ?_, ?_⟩
  · rw [hrun]
    simp only [pairAt_coe]
    cases e i <;> simp
  have hh : (h : K) ≠ 0 := by
    have : h ≠ 0 := by have := NeZero.ne (2 * h); omega
    exact_mod_cast this
  rw [hrun]
  simp only [gatherIdx_coe]
  set S := fun t : Fin h => x (pairAt t (!e t)) with hS
  set F := fun t : Fin h => x (pairAt t (e t)) with hF
  set D := fun s t : Fin h => k (S s) (S t) - k (S s) (F t) - k (F s) (S t) + k (F s) (F t) with hD
  have hDs : ∀ s t, D s t = D t s := by
    intro s t
    simp only [hD]
    rw [hk (S s) (S t), hk (F s) (F t), hk (S s) (F t), hk (F s) (S t)]
    ring
  have hE : ∀ i : ℕ, i ≤ h → ∑ s ∈ Finset.univ.filter (fun s : Fin h => (s : ℕ) < i),
      ∑ t ∈ Finset.univ.filter (fun t : Fin h => (t : ℕ) < i), D s t
      = ∑ j ∈ Finset.univ.filter (fun s : Fin h => (s : ℕ) < i),
        (k (x (pairAt j false)) (x (pairAt j false)) + k (x (pairAt j true)) (x (pairAt j true))
            - 2 * k (x (pairAt j false)) (x (pairAt j true)) + (if e j then 2 else -2) * imbalance k x e j) := by
    intro i
    induction i with
    | zero => simp
    | succ i ih =>
      intro hi
      set i' : Fin h := ⟨i, by omega⟩ with hi'
      have hstep := signed_energy_step D hDs i'
      rw [show (i' : ℕ) = i from rfl] at hstep
      rw [hstep, ih (by omega)]
      have hf : Finset.univ.filter (fun s : Fin h => (s : ℕ) < i + 1)
          = insert i' (Finset.univ.filter (fun s : Fin h => (s : ℕ) < i)) := by
        ext s
        simp only [Finset.mem_filter, Finset.mem_univ, true_and, Finset.mem_insert, Fin.ext_iff, hi']
        omega
      have hni : i' ∉ Finset.univ.filter (fun s : Fin h => (s : ℕ) < i) := by simp [hi']
      rw [hf, Finset.sum_insert hni]
      have hdiag : D i' i' = k (x (pairAt i' false)) (x (pairAt i' false)) + k (x (pairAt i' true)) (x (pairAt i' true))
            - 2 * k (x (pairAt i' false)) (x (pairAt i' true)) := by
        simp only [hD, hS, hF]
        cases e i' <;> simp <;> rw [hk (x (pairAt i' true)) (x (pairAt i' false))] <;> ring
      have hcross : 2 * ∑ t ∈ Finset.univ.filter (fun t : Fin h => t < i'), D t i'
          = (if e i' then 2 else -2) * imbalance k x e i' := by
        unfold imbalance
        simp only [hD]
        cases hei : e i'
        · simp only [hS, hF, hei, Bool.not_false, if_false, Bool.false_eq_true]
          rw [Finset.mul_sum, Finset.mul_sum]
          refine Finset.sum_congr rfl fun t _ => ?_
          ring
        · simp only [hS, hF, hei, Bool.not_true, if_true]
          congr 1
          refine Finset.sum_congr rfl fun t _ => ?_
          ring
      rw [hdiag, hcross]
      ring
  have hall := hE h le_rfl
  rw [Finset.filter_true_of_mem (fun s _ => s.2)] at hall
  rw [← hall]
  unfold mmdSq avg
  simp only [one_mul, Finset.sum_const, Finset.card_univ, Fintype.card_fin, nsmul_eq_mul, mul_one]
  simp only [hD, Finset.sum_add_distrib, Finset.sum_sub_distrib, ← Finset.sum_div]
  have hsw : ∑ s, ∑ t, k (S s) (F t) = ∑ s, ∑ t, k (F s) (S t) := by
    rw [Finset.sum_comm]
    exact Finset.sum_congr rfl fun s _ => Finset.sum_congr rfl fun t _ => hk _ _
  rw [hsw]
  field_simp
  ring

end Half

end Coreax
