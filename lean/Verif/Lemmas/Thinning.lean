import Verif.Model.Thinning
import Verif.Spec.Thinning
import Verif.Lemmas.Greedy
import Mathlib.Data.List.Perm.Basic

/-!
# Lemmas on kernel thinning
-/

set_option linter.unusedSectionVars false

namespace Coreax

open Spec

section Half
variable {X K : Type*} [Field K] [LinearOrder K] [IsStrictOrderedRing K] {h : ℕ}

theorem pairAt_coe (i : Fin h) (e : Bool) : ((pairAt i e : Fin (2 * h)) : ℤ) = 2 * (i : ℤ) + (if e then 1 else 0) := by
  cases e <;> simp [pairAt]

theorem pairAt_inj {i j : Fin h} {e e' : Bool} (hp : pairAt i e = pairAt j e') : i = j ∧ e = e' := by
  have := pairEquiv.injective (a₁ := (i, e)) (a₂ := (j, e')) hp
  simpa using this

theorem sum_pairs (g : Fin (2 * h) → K) : ∑ s, g s = ∑ t : Fin h, (g (pairAt t false) + g (pairAt t true)) := by
  rw [← Equiv.sum_comp pairEquiv g, Fintype.sum_prod_type]
  refine Finset.sum_congr rfl fun t _ => ?_
  simp [pairEquiv, add_comm]

/-- The sum over the seen points minus twice the sum over the first half is the signed sum. -/
theorem alpha_eq [NeZero (2 * h)] (k : X → X → K) (x : Fin (2 * h) → X) (e : Fin h → Bool) (i : Fin h)
    (first : Fin h → ℤ) (hf : ∀ t, t < i → first t = ((pairAt t (e t) : Fin (2 * h)) : ℤ)) :
    ktAlpha k x (x (pairAt i false)) (x (pairAt i true)) first (fun s => if (s : ℕ) < 2 * i then 1 else 0)
      (fun t => if (t : ℕ) < i then 1 else 0) = imbalance k x e i := by
  unfold ktAlpha imbalance
  simp only
  set g := fun s : Fin (2 * h) => k (x s) (x (pairAt i false)) - k (x s) (x (pairAt i true)) with hg
  rw [show (∑ s, (k (x s) (x (pairAt i false)) - k (x s) (x (pairAt i true))) * (if (s : ℕ) < 2 * i then (1 : K) else 0))
      = ∑ s, g s * (if (s : ℕ) < 2 * i then (1 : K) else 0) from rfl, sum_pairs]
  rw [Finset.mul_sum, ← Finset.sum_add_distrib, Finset.sum_filter]
  refine Finset.sum_congr rfl fun t _ => ?_
  have h1 : ((pairAt t false : Fin (2 * h)) : ℕ) < 2 * (i : ℕ) ↔ t < i := by
    simp only [pairAt, Fin.lt_def]; simp
  have h2 : ((pairAt t true : Fin (2 * h)) : ℕ) < 2 * (i : ℕ) ↔ t < i := by
    simp only [pairAt, Fin.lt_def]; simp; omega
  by_cases ht : t < i
  · have ht' : (t : ℕ) < i := ht
    rw [hf t ht, gatherIdx_coe]
    simp only [h1, h2, ht, ht', if_true, mul_one]
    change g (pairAt t false) + g (pairAt t true) + -2 * g (pairAt t (e t)) = _
    cases e t <;> simp <;> ring
  · have ht' : ¬ (t : ℕ) < i := ht
    simp [h1, h2, ht, ht']

theorem imbalance_congr (k : X → X → K) (x : Fin (2 * h) → X) (e e' : Fin h → Bool) (i : Fin h)
    (he : ∀ t, t < i → e t = e' t) : imbalance k x e i = imbalance k x e' i := by
  unfold imbalance
  refine Finset.sum_congr rfl fun t ht => ?_
  rw [he t (by simpa using ht)]

/-- The kernel distance of the members of a pair. -/
def pairDist (root : K → K) (k : X → X → K) (x : Fin (2 * h) → X) (i : Fin h) : Ext K :=
  ktDistance root k (x (pairAt i false)) (x (pairAt i true))

/-- The run of kernel halving, floats included: which pairs are swapped and the parameter sequence. -/
theorem ktHalf_run [NeZero (2 * h)] (root : K → K) (k : X → X → K) (c : Ext K) (u : ℕ → K) (x : Fin (2 * h) → X) :
    ∃ (e : Fin h → Bool) (σ : ℕ → Ext K), σ 0 = Ext.fin 0 ∧
      ktHalf root k c u x = (fun i => ((pairAt i (e i) : Fin (2 * h)) : ℤ), fun i => ((pairAt i (!e i) : Fin (2 * h)) : ℤ)) ∧
      ∀ i : Fin h, σ (i + 1) = ktSigma root (pairDist root k x i) (ktA c (pairDist root k x i) (σ i)) (σ i) ∧
        e i = ktSwap (u i) (ktA c (pairDist root k x i) (σ i)) (imbalance k x e i) := by
  have key := forLoop_inv (P := fun (i : ℕ) (s : KTState h K) => ∃ (e : Fin h → Bool) (σ : ℕ → Ext K), σ 0 = Ext.fin 0 ∧
      s.sigma = σ i ∧ (s.maskX = fun a : Fin (2 * h) => if (a : ℕ) < 2 * i then (1 : K) else 0) ∧
      (s.maskC = fun a : Fin h => if (a : ℕ) < i then (1 : K) else 0) ∧
      ∀ t : Fin h, (t : ℕ) < i → s.first t = ((pairAt t (e t) : Fin (2 * h)) : ℤ) ∧
        s.second t = ((pairAt t (!e t) : Fin (2 * h)) : ℤ) ∧
        σ (t + 1) = ktSigma root (pairDist root k x t) (ktA c (pairDist root k x t) (σ t)) (σ t) ∧
        e t = ktSwap (u t) (ktA c (pairDist root k x t) (σ t)) (imbalance k x e t))
    h (ktBody root k c u x) (ktInit h)
    ⟨fun _ => false, fun _ => Ext.fin 0, rfl, rfl, by simp [ktInit], by simp [ktInit], by intro t ht; omega⟩ ?_
  · obtain ⟨e, σ, h0, -, -, -, hall⟩ := key
    refine ⟨e, σ, h0, ?_, fun i => (hall i i.2).2.2⟩
    unfold ktHalf
    refine Prod.ext (funext fun t => ?_) (funext fun t => ?_)
    · exact (hall t t.2).1
    · exact (hall t t.2).2.1
  · rintro i s ⟨e, σ, h0, hs, hX, hC, hall⟩
    have hx1 : gatherIdx (2 * h) ((i : ℤ) * 2) = pairAt i false := by
      rw [show ((i : ℤ) * 2) = ((pairAt i false : Fin (2 * h)) : ℤ) by rw [pairAt_coe]; simp; ring, gatherIdx_coe]
    have hx2 : gatherIdx (2 * h) ((i : ℤ) * 2 + 1) = pairAt i true := by
      rw [show ((i : ℤ) * 2 + 1) = ((pairAt i true : Fin (2 * h)) : ℤ) by rw [pairAt_coe]; simp; ring, gatherIdx_coe]
    have hal : ktAlpha k x (x (pairAt i false)) (x (pairAt i true)) s.first s.maskX s.maskC = imbalance k x e i := by
      rw [hX, hC]
      exact alpha_eq k x e i s.first (fun t ht => (hall t ht).1)
    set sw := ktSwap (u i) (ktA c (pairDist root k x i) (σ i)) (imbalance k x e i) with hsw
    set σn := ktSigma root (pairDist root k x i) (ktA c (pairDist root k x i) (σ i)) (σ i) with hσn
    have himb : ∀ t : Fin h, t ≤ i → imbalance k x (Function.update e i sw) t = imbalance k x e t := by
      intro t ht
      refine imbalance_congr _ _ _ _ _ fun t' ht' => ?_
      rw [Function.update_of_ne (lt_of_lt_of_le ht' ht).ne]
    have hval : (if sw = true then (2 * (i : ℤ) + 1, 2 * (i : ℤ)) else (2 * (i : ℤ), 2 * (i : ℤ) + 1))
        = (((pairAt i sw : Fin (2 * h)) : ℤ), ((pairAt i (!sw) : Fin (2 * h)) : ℤ)) := by
      cases sw <;> simp [pairAt_coe]
    have hb : ktBody root k c u x i s = ⟨Function.update s.first i ((pairAt i sw : Fin (2 * h)) : ℤ),
        Function.update s.second i ((pairAt i (!sw) : Fin (2 * h)) : ℤ), σn,
        Function.update (Function.update s.maskX (pairAt i false) 1) (pairAt i true) 1,
        Function.update s.maskC i 1⟩ := by
      unfold ktBody
      simp only [hx1, hx2, hal]
      have e1 : ktDistance root k (x (pairAt i false)) (x (pairAt i true)) = pairDist root k x i := rfl
      rw [e1, hs, ← hsw, ← hσn, hval]
      simp only [setAt_coe]
      have e2 : (2 * (i : ℤ)) = ((pairAt i false : Fin (2 * h)) : ℤ) := by rw [pairAt_coe]; simp
      have e3 : (2 * (i : ℤ)) + 1 = ((pairAt i true : Fin (2 * h)) : ℤ) := by rw [pairAt_coe]; simp
      rw [e3, setAt_coe, e2, setAt_coe]
    rw [hb]
    refine ⟨Function.update e i sw, Function.update σ (i + 1) σn, ?_, ?_, ?_, ?_, ?_⟩
    · rw [Function.update_of_ne (by omega)]; exact h0
    · simp
    · funext a
      simp only [hX]
      rcases (pairEquiv (h := h)).surjective a with ⟨⟨t, b⟩, rfl⟩
      change Function.update (Function.update _ (pairAt i false) 1) (pairAt i true) 1 (pairAt t b) = _
      by_cases ht : t = i
      · subst ht
        have hlt : ((pairEquiv (t, b) : Fin (2 * h)) : ℕ) < 2 * ((t : ℕ) + 1) := by
          change ((pairAt t b : Fin (2 * h)) : ℕ) < _
          cases b <;> simp [pairAt] <;> omega
        rw [if_pos hlt]
        cases b
        · rw [Function.update_of_ne (by intro hh; simpa using (pairAt_inj hh).2), Function.update_self]
        · rw [Function.update_self]
      · have hne : ∀ b', pairAt t b ≠ pairAt i b' := fun b' hh => ht (pairAt_inj hh).1
        rw [Function.update_of_ne (hne _), Function.update_of_ne (hne _)]
        have : (t : ℕ) ≠ i := fun hh => ht (Fin.ext hh)
        have e1 : ((pairEquiv (t, b) : Fin (2 * h)) : ℕ) = 2 * t + (if b then 1 else 0) := rfl
        have e2 : ((pairAt t b : Fin (2 * h)) : ℕ) = 2 * t + (if b then 1 else 0) := rfl
        rw [e1, e2]
        congr 1
        cases b <;> simp <;> omega
    · funext a
      simp only [hC]
      by_cases ha : a = i
      · subst ha; simp
      · rw [Function.update_of_ne ha]
        have : (a : ℕ) ≠ i := fun hh => ha (Fin.ext hh)
        congr 1
        simp; omega
    · intro t ht
      have hle : t ≤ i := by rw [Fin.le_def]; omega
      simp only
      rw [himb t hle]
      by_cases hti : t = i
      · subst hti
        simp only [Function.update_self]
        rw [Function.update_of_ne (by omega : (t : ℕ) ≠ (t : ℕ) + 1)]
        exact ⟨trivial, trivial, hσn, hsw⟩
      · have hlt : (t : ℕ) < i := lt_of_le_of_ne hle (fun hh => hti (Fin.ext hh))
        simp only [Function.update_of_ne hti]
        rw [Function.update_of_ne (by omega : (t : ℕ) ≠ (i : ℕ) + 1), Function.update_of_ne (by omega : (t : ℕ) + 1 ≠ (i : ℕ) + 1)]
        exact hall t hlt

theorem Ext.maximum_fin (a b : K) : Ext.maximum (Ext.fin a) (Ext.fin b) = Ext.fin (max a b) := by
  simp only [Ext.maximum, Ext.isNan, Ext.lt]
  by_cases hab : a < b
  · simp [hab, max_eq_right hab.le]
  · simp [hab, max_eq_left (not_lt.1 hab)]

theorem ktSigma_fin (root : K → K) (b a s : K) (ha : 0 < a) :
    ktSigma root (Ext.fin b) (Ext.fin a) (Ext.fin s)
      = Ext.fin (root (s ^ 2 + max (b ^ 2 * (1 + (b ^ 2 - 2 * a) * s ^ 2 / a ^ 2)) 0)) := by
  have hne : a * a ≠ 0 := (mul_pos ha ha).ne'
  have hdiv : ∀ v : K, (Ext.fin v / Ext.fin (a * a) : Ext K) = Ext.fin (v / (a * a)) := by
    intro v
    change Ext.div _ _ = _
    simp [Ext.div, ha.ne']
  unfold ktSigma
  rw [Ext.fin_mul_fin, Ext.fin_mul_fin, Ext.fin_mul_fin, Ext.fin_sub_fin, Ext.fin_mul_fin, Ext.fin_mul_fin, hdiv,
    Ext.fin_add_fin, Ext.fin_mul_fin, Ext.maximum_fin, Ext.fin_add_fin]
  simp only [Ext.sqrt]
  rw [if_neg (not_lt.2 (add_nonneg (mul_self_nonneg s) (le_max_right _ _)))]
  simp only [sq]

theorem ktSwap_fin (u a alpha : K) (ha : 0 < a) :
    ktSwap u (Ext.fin a) alpha = true ↔ u ≤ 1 / 2 * (1 - alpha / a) := by
  have hdiv : (Ext.fin alpha / Ext.fin a : Ext K) = Ext.fin (alpha / a) := by
    change Ext.div _ _ = _
    simp [Ext.div, ha.ne']
  unfold ktSwap
  rw [hdiv, Ext.fin_sub_fin, Ext.fin_mul_fin]
  simp [Ext.le, Ext.isNan, Ext.lt]

theorem ktA_zero (c σ : Ext K) : ktA c (Ext.fin 0) σ = Ext.nan ∨ (ktA c (Ext.fin 0) σ = Ext.fin 0 ∧ ∃ s, σ = Ext.fin s) := by
  have hm : ∀ y : Ext K, Ext.maximum Ext.nan y = Ext.nan := fun y => by simp [Ext.maximum, Ext.isNan]
  have h1 : (Ext.fin (0 : K) * Ext.pinf : Ext K) = Ext.nan := by change Ext.mul _ _ = _; simp [Ext.mul, Ext.signMul]
  have h2 : (Ext.fin (0 : K) * Ext.ninf : Ext K) = Ext.nan := by change Ext.mul _ _ = _; simp [Ext.mul, Ext.signMul]
  have h3 : ∀ y : Ext K, (Ext.nan * y : Ext K) = Ext.nan := fun y => by cases y <;> rfl
  have h4 : (Ext.fin (0 : K) * Ext.nan : Ext K) = Ext.nan := rfl
  unfold ktA
  cases σ with
  | nan => left; rw [h4, h3, hm]
  | pinf => left; rw [h1, h3, hm]
  | ninf => left; rw [h2, h3, hm]
  | fin s =>
    rw [Ext.fin_mul_fin, zero_mul]
    cases c with
    | nan => left; rw [h4, hm]
    | pinf => left; rw [h1, hm]
    | ninf => left; rw [h2, hm]
    | fin c =>
      right
      rw [Ext.fin_mul_fin, Ext.fin_mul_fin, Ext.maximum_fin]
      simp

theorem ktA_nan (c b : Ext K) : ktA c b Ext.nan = Ext.nan := by
  have h3 : ∀ y : Ext K, (Ext.nan * y : Ext K) = Ext.nan := fun y => by cases y <;> rfl
  have h4 : ∀ y : Ext K, (y * Ext.nan : Ext K) = Ext.nan := fun y => by cases y <;> rfl
  simp [ktA, h3, h4, Ext.maximum, Ext.isNan]

theorem ktSigma_nan_a (root : K → K) (b σ : Ext K) : ktSigma root b Ext.nan σ = Ext.nan := by
  have h3 : ∀ y : Ext K, (Ext.nan * y : Ext K) = Ext.nan := fun y => by cases y <;> rfl
  have h4 : ∀ y : Ext K, (y * Ext.nan : Ext K) = Ext.nan := fun y => by cases y <;> rfl
  have h5 : ∀ y : Ext K, (y / Ext.nan : Ext K) = Ext.nan := fun y => by cases y <;> rfl
  simp [ktSigma, h3, h4, h5, Ext.maximum, Ext.isNan, Ext.sqrt]

theorem ktSwap_nan (u alpha : K) : ktSwap u Ext.nan alpha = false := by
  have h5 : ∀ y : Ext K, (y / Ext.nan : Ext K) = Ext.nan := fun y => by cases y <;> rfl
  simp [ktSwap, h5, Ext.le, Ext.isNan]

theorem Ext.zero_div_zero : (Ext.fin (0 : K) / Ext.fin 0 : Ext K) = Ext.nan := by
  change Ext.div _ _ = _
  simp [Ext.div]

theorem ktSwap_zero (u : K) : ktSwap u (Ext.fin 0) 0 = false := by
  simp [ktSwap, Ext.zero_div_zero, Ext.le, Ext.isNan]

theorem ktSigma_zero (root : K → K) (s : K) : ktSigma root (Ext.fin 0) (Ext.fin 0) (Ext.fin s) = Ext.nan := by
  simp [ktSigma, Ext.zero_div_zero, Ext.maximum, Ext.isNan, Ext.sqrt]

end Half

theorem ofFn_range (N : ℕ) : List.ofFn (fun t : Fin N => ((t : ℕ) : ℤ)) = (List.range N).map (fun a : ℕ => (a : ℤ)) := by
  apply List.ext_getElem <;> simp

section Perm

theorem count_ofFn {m : ℕ} (f : Fin m → ℤ) (a : ℤ) : (List.ofFn f).count a = ∑ t, if f t = a then 1 else 0 := by
  induction m with
  | zero => simp
  | succ m ih =>
    rw [List.ofFn_succ, List.count_cons, ih, Fin.sum_univ_succ, add_comm]
    simp

/-- Splitting each pair between two halves rearranges the list. -/
theorem perm_halves {h : ℕ} (parent : Fin (2 * h) → ℤ) (e : Fin h → Bool) :
    (List.ofFn (fun t => parent (pairAt t (e t))) ++ List.ofFn (fun t => parent (pairAt t (!e t)))).Perm
      (List.ofFn parent) := by
  rw [List.perm_iff_count]
  intro a
  rw [List.count_append, count_ofFn, count_ofFn, count_ofFn, ← Finset.sum_add_distrib,
    ← Equiv.sum_comp pairEquiv, Fintype.sum_prod_type]
  refine Finset.sum_congr rfl fun t _ => ?_
  rw [Fintype.sum_bool]
  change _ = (if parent (pairAt t true) = a then 1 else 0) + (if parent (pairAt t false) = a then 1 else 0)
  cases e t <;> simp [add_comm]

variable {X K : Type*} [Field K] [LinearOrder K] [IsStrictOrderedRing K] {n : ℕ} [NeZero n] {size : ℕ} [NeZero size]

theorem ktHalfRecursive_perm (root : K → K) (k : X → X → K) (c : Ext K) (u : ℕ → K) (d : Fin n → X) :
    ∀ (m : ℕ) (parent : Fin (ktRows size m) → ℤ),
      (ktHalfRecursive root k c u d m parent).length = 2 ^ m ∧
      ((ktHalfRecursive root k c u d m parent).flatMap List.ofFn).Perm (List.ofFn parent)
  | 0, parent => by
    refine ⟨rfl, ?_⟩
    have hq : ∀ q : Fin size → ℤ, ([q].flatMap List.ofFn).Perm (List.ofFn q) := fun q => by simp
    exact hq parent
  | m + 1, parent => by
    obtain ⟨e, σ, -, hrun, -⟩ := ktHalf_run root k c u (fun t : Fin (2 * ktRows size m) => d (gatherIdx n (parent t)))
    simp only [ktHalfRecursive, hrun, gatherIdx_coe]
    obtain ⟨l1, p1⟩ := ktHalfRecursive_perm root k c u d m (fun t => parent (pairAt t (e t)))
    obtain ⟨l2, p2⟩ := ktHalfRecursive_perm root k c u d m (fun t => parent (pairAt t (!e t)))
    refine ⟨by rw [List.length_append, l1, l2]; ring, ?_⟩
    rw [List.flatMap_append]
    exact (p1.append p2).trans (perm_halves parent e)

theorem ktPartition_perm (root : K → K) (k : X → X → K) (c : Ext K) (u : ℕ → K) (d : Fin n → X) (m : ℕ) :
    (ktPartition (size := size) root k c u d m).length = 2 ^ m ∧
      ((ktPartition (size := size) root k c u d m).flatMap List.ofFn).Perm
        (List.ofFn (fun t : Fin (ktRows size m) => ((t : ℕ) : ℤ))) := by
  cases m with
  | zero =>
    refine ⟨rfl, ?_⟩
    have hq : ∀ q : Fin size → ℤ, ([q].flatMap List.ofFn).Perm (List.ofFn q) := fun q => by simp
    exact hq _
  | succ m =>
    obtain ⟨e, σ, -, hrun, -⟩ := ktHalf_run root k c u (fun t : Fin (2 * ktRows size m) => d (gatherIdx n ((t : ℕ) : ℤ)))
    simp only [ktPartition, hrun]
    obtain ⟨l1, p1⟩ := ktHalfRecursive_perm (size := size) root k c u d m (fun t => ((pairAt t (e t) : Fin (2 * ktRows size m)) : ℤ))
    obtain ⟨l2, p2⟩ := ktHalfRecursive_perm (size := size) root k c u d m (fun t => ((pairAt t (!e t) : Fin (2 * ktRows size m)) : ℤ))
    refine ⟨by rw [List.length_append, l1, l2]; ring, ?_⟩
    rw [List.flatMap_append]
    exact (p1.append p2).trans (perm_halves (fun t => ((t : ℕ) : ℤ)) e)

theorem ktRows_eq (size m : ℕ) : ktRows size m = size * 2 ^ m := by
  induction m with
  | zero => simp [ktRows]
  | succ m ih => rw [ktRows, ih, pow_succ]; ring

end Perm

end Coreax
