import Verif.Props.Thinning
import Verif.Lemmas.HalvingWalk
import Verif.Lemmas.Kernel

/-!
# C50: what kernel halving guarantees about integration errors

One call of `kt_half` (`/repo/coreax/solvers/coresubset.py:1431-1652`) with independent uniform draws.  The walk of the
signed sum of features is self-balancing; `sigma`, `a` and `delta` of the code are exactly what makes it sub-Gaussian.
-/

set_option linter.unusedSectionVars false

universe w

namespace Coreax

open Spec MeasureTheory

local notation "⟪" x ", " y "⟫" => inner ℝ x y

variable {X : Type*} {h : ℕ} [NeZero (2 * h)]

namespace Halving

variable {H : Type*} [NormedAddCommGroup H] [InnerProductSpace ℝ H]

theorem h_pos : 0 < h := by have := NeZero.ne (2 * h); omega

/-- The difference of the features of pair `i` (of the first pair, beyond the last one). -/
noncomputable def diff (φ : X → H) (x : Fin (2 * h) → X) (i : ℕ) : H :=
  if hi : i < h then φ (x (pairAt ⟨i, hi⟩ false)) - φ (x (pairAt ⟨i, hi⟩ true))
  else φ (x (pairAt ⟨0, h_pos⟩ false)) - φ (x (pairAt ⟨0, h_pos⟩ true))

theorem diff_fin (φ : X → H) (x : Fin (2 * h) → X) (i : Fin h) :
    diff φ x i = φ (x (pairAt i false)) - φ (x (pairAt i true)) := by
  unfold diff
  rw [dif_pos i.2]

/-- The variance proxy with its own threshold. -/
noncomputable def proxy (b : ℕ → ℝ) (c : ℝ) : ℕ → ℝ
  | 0 => 0
  | n + 1 =>
    let a := max (b n * Real.sqrt (proxy b c n) * c) (b n ^ 2)
    proxy b c n + max (b n ^ 2 * (1 + (b n ^ 2 - 2 * a) * proxy b c n / a ^ 2)) 0

/-- The threshold of step `n`. -/
noncomputable def limit (b : ℕ → ℝ) (c : ℝ) (n : ℕ) : ℝ := max (b n * Real.sqrt (proxy b c n) * c) (b n ^ 2)

theorem proxy_eq (b : ℕ → ℝ) (c : ℝ) (n : ℕ) : Walk.var b (limit b c) n = proxy b c n := by
  induction n with
  | zero => rfl
  | succ n ih => simp only [Walk.var, proxy, ih, limit]

theorem proxy_nonneg (b : ℕ → ℝ) (c : ℝ) (n : ℕ) : 0 ≤ proxy b c n := by
  rw [← proxy_eq]; exact Walk.var_nonneg _ _ _

theorem limit_pos (b : ℕ → ℝ) (c : ℝ) (n : ℕ) (hb : 0 < b n) : 0 < limit b c n :=
  lt_of_lt_of_le (by positivity) (le_max_right _ _)

variable (φ : X → H) {sk : X → X → ℝ} (hφ : ∀ a b, sk a b = ⟪φ a, φ b⟫) (x : Fin (2 * h) → X)

include hφ

theorem dist_eq (i : Fin h) : sk (x (pairAt i false)) (x (pairAt i false)) + sk (x (pairAt i true)) (x (pairAt i true))
    - 2 * sk (x (pairAt i false)) (x (pairAt i true)) = ‖diff φ x i‖ ^ 2 := by
  rw [diff_fin, norm_sub_sq_real, hφ, hφ, hφ, real_inner_self_eq_norm_sq, real_inner_self_eq_norm_sq]
  ring

theorem diff_pos (hd : ∀ i : Fin h, φ (x (pairAt i false)) ≠ φ (x (pairAt i true))) (i : ℕ) : 0 < ‖diff φ x i‖ := by
  rw [norm_pos_iff]
  unfold diff
  split <;> exact sub_ne_zero.2 (hd _)

theorem imbalance_eq (e : Fin h → Bool) (i : Fin h) :
    imbalance sk x e i = ⟪Walk.pos (diff φ x) (Walk.ext e) i, diff φ x i⟫ := by
  unfold imbalance Walk.pos
  rw [sum_inner]
  simp only
  refine Finset.sum_nbij (fun t : Fin h => (t : ℕ)) ?_ ?_ ?_ ?_
  · intro t ht
    rw [Finset.mem_range]
    simpa using ht
  · intro a _ b _ hab
    exact Fin.ext hab
  · intro j hj
    have hj' : j < (i : ℕ) := Finset.mem_range.1 hj
    refine ⟨⟨j, hj'.trans i.2⟩, ?_, rfl⟩
    simp only [Finset.coe_filter, Finset.mem_univ, true_and, Set.mem_ofPred_eq]
    exact hj'
  · intro t _
    have he : Walk.ext e (t : ℕ) = e t := by unfold Walk.ext; rw [dif_pos t.2]
    rw [he, inner_smul_left, diff_fin, diff_fin]
    simp only [hφ, inner_sub_left, inner_sub_right]
    cases e t <;> simp [Walk.sgn] <;> ring

/-- Kernel halving is the self-balancing walk. -/
theorem run (c : ℝ) (hd : ∀ i : Fin h, φ (x (pairAt i false)) ≠ φ (x (pairAt i true))) (u : Fin h → ℝ) :
    ∃ e : Fin h → Bool, ktHalf Real.sqrt sk (Ext.fin c) (drawSeq u) x
        = (fun i => ((pairAt i (e i) : Fin (2 * h)) : ℤ), fun i => ((pairAt i (!e i) : Fin (2 * h)) : ℤ)) ∧
      ∀ i : Fin h, (e i = true ↔ u i ≤ Walk.thr (diff φ x) (limit (fun i => ‖diff φ x i‖) c) (Walk.ext e) i) := by
  set b := fun i => ‖diff φ x i‖ with hb
  have hd' : ∀ i : Fin h, 0 < sk (x (pairAt i false)) (x (pairAt i false)) + sk (x (pairAt i true)) (x (pairAt i true))
      - 2 * sk (x (pairAt i false)) (x (pairAt i true)) := by
    intro i
    rw [dist_eq φ hφ]
    have := diff_pos φ hφ x hd i
    positivity
  obtain ⟨s, e, h0, hall⟩ := C19_swap_rule Real.sqrt (fun v hv => Real.mul_self_sqrt hv) sk c (drawSeq u) x hd'
  have hroot : ∀ i : Fin h, Real.sqrt (sk (x (pairAt i false)) (x (pairAt i false)) + sk (x (pairAt i true)) (x (pairAt i true))
      - 2 * sk (x (pairAt i false)) (x (pairAt i true))) = b i := fun i => by
    rw [dist_eq φ hφ, Real.sqrt_sq (norm_nonneg _)]
  have hs : ∀ i, i ≤ h → s i = Real.sqrt (proxy b c i) := by
    intro i
    induction i with
    | zero => intro _; rw [h0]; simp [proxy]
    | succ i ih =>
      intro hi
      have := (hall ⟨i, by omega⟩).2.1
      rw [hroot] at this
      simp only at this
      rw [this, ih (by omega), Real.sq_sqrt (proxy_nonneg _ _ _)]
      rfl
  refine ⟨e, Prod.ext (funext fun i => (hall i).2.2.1) (funext fun i => (hall i).2.2.2.1), fun i => ?_⟩
  have := (hall i).2.2.2.2
  rw [hroot, hs i i.2.le, imbalance_eq φ hφ] at this
  rw [this]
  have hu : drawSeq u i = u i := by unfold drawSeq; rw [dif_pos i.2]
  rw [hu]
  rfl

/-- The decisions as a function of the draws. -/
theorem dec_exists (c : ℝ) (hd : ∀ i : Fin h, φ (x (pairAt i false)) ≠ φ (x (pairAt i true))) :
    ∃ dec : (Fin h → ℝ) → Fin h → Bool, (∀ u, ktHalf Real.sqrt sk (Ext.fin c) (drawSeq u) x
        = (fun i => ((pairAt i (dec u i) : Fin (2 * h)) : ℤ), fun i => ((pairAt i (!dec u i) : Fin (2 * h)) : ℤ))) ∧
      ∀ u i, (dec u i = true ↔ u i ≤ Walk.thr (diff φ x) (limit (fun i => ‖diff φ x i‖) c) (Walk.ext (dec u)) i) :=
  ⟨fun u => (run φ hφ x c hd u).choose, fun u => (run φ hφ x c hd u).choose_spec.1,
    fun u => (run φ hφ x c hd u).choose_spec.2⟩

omit hφ in
/-- The end of the walk is the sum over the second half minus the sum over the first half. -/
theorem pos_end (e : Fin h → Bool) :
    Walk.pos (diff φ x) (Walk.ext e) h = ∑ i, φ (x (pairAt i (!e i))) - ∑ i, φ (x (pairAt i (e i))) := by
  unfold Walk.pos
  rw [Finset.sum_range, ← Finset.sum_sub_distrib]
  refine Finset.sum_congr rfl fun i _ => ?_
  have he : Walk.ext e (i : ℕ) = e i := by unfold Walk.ext; rw [dif_pos i.2]
  rw [he, diff_fin]
  cases e i <;> simp [Walk.sgn]

end Halving

open Halving

/-- In expectation over the draws, the squared MMD (with the halving kernel) between the two halves is at most the sum of
the squared kernel distances of the pairs, divided by the squared number of pairs. -/
theorem C50_expected_balance (sk : X → X → ℝ) (hsk : IsPSD sk) (c : ℝ) (x : Fin (2 * h) → X)
    (hd : ∀ i : Fin h, 0 < sk (x (pairAt i false)) (x (pairAt i false)) + sk (x (pairAt i true)) (x (pairAt i true))
      - 2 * sk (x (pairAt i false)) (x (pairAt i true))) :
    ∫ u, mmdSq sk (fun t => x (gatherIdx (2 * h) ((ktHalf Real.sqrt sk (Ext.fin c) (drawSeq u) x).1 t))) (fun _ => 1)
        (fun t => x (gatherIdx (2 * h) ((ktHalf Real.sqrt sk (Ext.fin c) (drawSeq u) x).2 t))) (fun _ => 1) ∂(uniformDraws h)
      ≤ (∑ i : Fin h, (sk (x (pairAt i false)) (x (pairAt i false)) + sk (x (pairAt i true)) (x (pairAt i true))
          - 2 * sk (x (pairAt i false)) (x (pairAt i true)))) / (h : ℝ) ^ 2 := by
  obtain ⟨H, _, _, φ, hφ⟩ := hsk.exists_feature
  have hd' : ∀ i : Fin h, φ (x (pairAt i false)) ≠ φ (x (pairAt i true)) := by
    intro i heq
    have h1 := hd i
    rw [dist_eq φ hφ, diff_fin, heq, sub_self, norm_zero] at h1
    norm_num at h1
  obtain ⟨dec, hrun, hdec⟩ := dec_exists φ hφ x c hd'
  set a := limit (fun i => ‖diff φ x i‖) c with ha
  have hh : (0 : ℝ) < h := by exact_mod_cast h_pos (h := h)
  have hm : ∀ u, mmdSq sk (fun t => x (gatherIdx (2 * h) ((ktHalf Real.sqrt sk (Ext.fin c) (drawSeq u) x).1 t))) (fun _ => 1)
        (fun t => x (gatherIdx (2 * h) ((ktHalf Real.sqrt sk (Ext.fin c) (drawSeq u) x).2 t))) (fun _ => 1)
      = 1 / (h : ℝ) ^ 2 * ‖Walk.pos (diff φ x) (Walk.ext (dec u)) h‖ ^ 2 := by
    intro u
    rw [hrun u]
    simp only [gatherIdx_coe]
    rw [mmdSq_eq_norm φ hφ, pos_end]
    simp only [meanEmbedding, one_smul, Finset.sum_const, Finset.card_univ, Fintype.card_fin, nsmul_eq_mul, mul_one]
    rw [← smul_sub, norm_smul, mul_pow, norm_sub_rev, norm_inv, Real.norm_of_nonneg hh.le, inv_pow, _root_.one_div]
  simp only [hm]
  rw [Walk.integral_eq (diff φ x) a dec hdec (fun e => 1 / (h : ℝ) ^ 2 * ‖Walk.pos (diff φ x) e h‖ ^ 2), Walk.E_mul,
    div_mul_eq_mul_div, one_mul]
  refine div_le_div_of_nonneg_right ?_ (by positivity)
  refine (Walk.E_sq (diff φ x) a (fun i => limit_pos _ _ _ (diff_pos φ hφ x hd' i)) h).trans_eq ?_
  rw [Finset.sum_range]
  exact Finset.sum_congr rfl fun i _ => (dist_eq φ hφ x i).symm

/-- Tail of the integration error of one halving, for a function `f = ⟪φ ·, g⟫` of the RKHS of the halving kernel: the
mean over the first half and the mean over all points differ by `t` or more with probability at most
`2 exp(-(2 h t)² / (2 V)) + h δ`, where `V = (B κ ‖g‖)²`, `B` bounds the kernel distance within the pairs,
`κ = (c + 1 / c) / 2` and `c = √(2 log (2 / δ))`. -/
theorem C50_tail {H : Type*} [NormedAddCommGroup H] [InnerProductSpace ℝ H] (φ : X → H) (sk : X → X → ℝ)
    (hφ : ∀ a b, sk a b = ⟪φ a, φ b⟫) (δ : ℝ) (hδ : 0 < δ) (hδ2 : δ < 2) (x : Fin (2 * h) → X)
    (hd : ∀ i : Fin h, φ (x (pairAt i false)) ≠ φ (x (pairAt i true))) (B : ℝ)
    (hB : ∀ i : Fin h, ‖φ (x (pairAt i false)) - φ (x (pairAt i true))‖ ≤ B) (g : H) (G : ℝ) (hG : 0 < G) (hg : ‖g‖ ≤ G)
    (t : ℝ) (ht : 0 ≤ t) :
    let c := Real.sqrt (2 * Real.log (2 / δ))
    (uniformDraws h).real {u | t ≤ |avg (fun _ => 1) (fun i => ⟪φ (x (gatherIdx (2 * h)
          ((ktHalf Real.sqrt sk (Ext.fin c) (drawSeq u) x).1 i))), g⟫) - avg (fun _ => 1) (fun i => ⟪φ (x i), g⟫)|}
      ≤ 2 * Real.exp (-((2 * h * t) ^ 2 / (2 * (B * ((c + 1 / c) / 2) * G) ^ 2))) + h * δ := by
  intro c
  have hlog : 0 < Real.log (2 / δ) := Real.log_pos (by rw [lt_div_iff₀ hδ]; linarith)
  have hc : 0 < c := Real.sqrt_pos.2 (by linarith)
  have hc2 : c ^ 2 = 2 * Real.log (2 / δ) := Real.sq_sqrt (by linarith)
  have hexp : 2 * Real.exp (-(c ^ 2 / 2)) = δ := by
    rw [hc2, show -(2 * Real.log (2 / δ) / 2) = Real.log (δ / 2) by
      rw [mul_div_cancel_left₀ _ (by norm_num), ← Real.log_inv, inv_div], Real.exp_log (by linarith)]
    ring
  obtain ⟨dec, hrun, hdec⟩ := dec_exists φ hφ x c hd
  set a := limit (fun i => ‖diff φ x i‖) c with ha
  have hb : ∀ i, 0 < ‖diff φ x i‖ := diff_pos φ hφ x hd
  have hBb : ∀ i, ‖diff φ x i‖ ≤ B := by
    intro i
    unfold diff
    split <;> exact hB _
  have hB0 : 0 < B := (hb 0).trans_le (hBb 0)
  have hh : (0 : ℝ) < h := by exact_mod_cast h_pos (h := h)
  have hadef : ∀ i, a i = max (‖diff φ x i‖ * Real.sqrt (Walk.var (fun i => ‖diff φ x i‖) a i) * c) (‖diff φ x i‖ ^ 2) := by
    intro i
    rw [ha, proxy_eq]; rfl
  set κ := (c + 1 / c) / 2 with hκ
  have hκ0 : 0 < κ := by rw [hκ]; positivity
  have hvar := Walk.var_le (fun i => ‖diff φ x i‖) a c B hc hb hBb hadef h
  rw [← hκ] at hvar
  have hV : 0 < (B * κ * G) ^ 2 := by positivity
  have hvV : Walk.var (fun i => ‖diff φ x i‖) a h * ‖g‖ ^ 2 ≤ (B * κ * G) ^ 2 := by
    rw [mul_pow (B * κ)]
    exact mul_le_mul hvar (pow_le_pow_left₀ (norm_nonneg _) hg 2) (by positivity) (by positivity)
  have key : ∀ u, (t ≤ |avg (fun _ => 1) (fun i => ⟪φ (x (gatherIdx (2 * h)
          ((ktHalf Real.sqrt sk (Ext.fin c) (drawSeq u) x).1 i))), g⟫) - avg (fun _ => 1) (fun i => ⟪φ (x i), g⟫)|) ↔
      2 * h * t ≤ |⟪Walk.pos (diff φ x) (Walk.ext (dec u)) h, g⟫| := by
    intro u
    rw [hrun u]
    simp only [gatherIdx_coe]
    rw [pos_end, inner_sub_left, sum_inner, sum_inner]
    unfold avg
    simp only [one_mul, Finset.sum_const, Finset.card_univ, Fintype.card_fin, nsmul_eq_mul, mul_one]
    rw [sum_pairs]
    have hsum : ∑ i : Fin h, (⟪φ (x (pairAt i false)), g⟫ + ⟪φ (x (pairAt i true)), g⟫)
        = ∑ i : Fin h, ⟪φ (x (pairAt i (!dec u i))), g⟫ + ∑ i : Fin h, ⟪φ (x (pairAt i (dec u i))), g⟫ := by
      rw [← Finset.sum_add_distrib]
      refine Finset.sum_congr rfl fun i _ => ?_
      cases dec u i <;> simp [add_comm]
    rw [hsum]
    set P := ∑ i : Fin h, ⟪φ (x (pairAt i (!dec u i))), g⟫
    set Q := ∑ i : Fin h, ⟪φ (x (pairAt i (dec u i))), g⟫
    have e1 : Q / (h : ℝ) - (P + Q) / ((2 * h : ℕ) : ℝ) = -(P - Q) / (2 * h) := by
      push_cast
      field_simp
      ring
    rw [e1, abs_div, abs_neg, abs_of_pos (by positivity : (0 : ℝ) < 2 * h), le_div_iff₀ (by positivity), mul_comm t]
  simp only [key]
  classical
  rw [Walk.measure_eq (diff φ x) a dec hdec (fun e => 2 * h * t ≤ |⟪Walk.pos (diff φ x) e h, g⟫|)]
  have := Walk.E_bound (diff φ x) a (fun i => limit_pos _ _ _ (hb i)) c hc
    (fun i => by rw [hadef i]; exact le_max_left _ _) h g (2 * h * t) ((B * κ * G) ^ 2) (by positivity) hV hvV
  rw [hexp] at this
  convert this

/-- With confidence `1 - δ' - h δ`, the mean over the first half is within `B κ G √(2 log (2 / δ')) / (2 h)` of the mean
over all points, for every function `∑ β j sk(·, z j)` whose RKHS norm is at most `G`; `B` bounds the kernel distance
within the pairs.  The bound does not grow with the data and falls like `1 / h`, where random sampling has `1 / √h`. -/
theorem C50_integration_error (sk : X → X → ℝ) (hsk : IsPSD sk) (δ : ℝ) (hδ : 0 < δ) (hδ2 : δ < 2) (x : Fin (2 * h) → X)
    (hd : ∀ i : Fin h, 0 < sk (x (pairAt i false)) (x (pairAt i false)) + sk (x (pairAt i true)) (x (pairAt i true))
      - 2 * sk (x (pairAt i false)) (x (pairAt i true))) (B : ℝ) (hB0 : 0 ≤ B)
    (hB : ∀ i : Fin h, sk (x (pairAt i false)) (x (pairAt i false)) + sk (x (pairAt i true)) (x (pairAt i true))
      - 2 * sk (x (pairAt i false)) (x (pairAt i true)) ≤ B ^ 2) {q : ℕ} (z : Fin q → X) (β : Fin q → ℝ) (G : ℝ) (hG : 0 < G)
    (hβ : ∑ i, ∑ j, β i * β j * sk (z i) (z j) ≤ G ^ 2) (δ' : ℝ) (hδ' : 0 < δ') (hδ'2 : δ' < 2) :
    let c := Real.sqrt (2 * Real.log (2 / δ))
    let f := fun y : X => ∑ j, β j * sk y (z j)
    (uniformDraws h).real {u | ¬ |avg (fun _ => 1) (fun i => f (x (gatherIdx (2 * h)
          ((ktHalf Real.sqrt sk (Ext.fin c) (drawSeq u) x).1 i)))) - avg (fun _ => 1) (fun i => f (x i))|
        < B * ((c + 1 / c) / 2) * G * Real.sqrt (2 * Real.log (2 / δ')) / (2 * h)} ≤ δ' + h * δ := by
  intro c f
  obtain ⟨H, _, _, φ, hφ⟩ := hsk.exists_feature
  have hd' : ∀ i : Fin h, φ (x (pairAt i false)) ≠ φ (x (pairAt i true)) := by
    intro i heq
    have h1 := hd i
    rw [dist_eq φ hφ, diff_fin, heq, sub_self, norm_zero] at h1
    norm_num at h1
  have hBn : ∀ i : Fin h, ‖φ (x (pairAt i false)) - φ (x (pairAt i true))‖ ≤ B := by
    intro i
    have h1 := hB i
    rw [dist_eq φ hφ, diff_fin] at h1
    exact abs_le_of_sq_le_sq' h1 hB0 |>.2
  have hBpos : 0 < B := by
    have := hBn ⟨0, h_pos⟩
    refine lt_of_lt_of_le ?_ this
    rw [norm_pos_iff]
    exact sub_ne_zero.2 (hd' _)
  set g := ∑ j, β j • φ (z j) with hg
  have hgn : ‖g‖ ≤ G := by
    refine (abs_le_of_sq_le_sq' (le_trans (le_of_eq ?_) hβ) hG.le).2
    rw [← real_inner_self_eq_norm_sq, hg, sum_inner]
    refine Finset.sum_congr rfl fun i _ => ?_
    rw [inner_sum]
    refine Finset.sum_congr rfl fun j _ => ?_
    rw [inner_smul_left, inner_smul_right, hφ]
    simp [mul_assoc]
  have hf : ∀ y, f y = ⟪φ y, g⟫ := by
    intro y
    simp only [f]
    rw [hg, inner_sum]
    exact Finset.sum_congr rfl fun j _ => by rw [inner_smul_right, hφ]
  have hlog : 0 < Real.log (2 / δ) := Real.log_pos (by rw [lt_div_iff₀ hδ]; linarith)
  have hlog' : 0 < Real.log (2 / δ') := Real.log_pos (by rw [lt_div_iff₀ hδ']; linarith)
  have hc : 0 < c := Real.sqrt_pos.2 (by linarith)
  have hh : (0 : ℝ) < h := by exact_mod_cast h_pos (h := h)
  have hκ : 0 < (c + 1 / c) / 2 := by positivity
  have hV : 0 < B * ((c + 1 / c) / 2) * G := by positivity
  have := C50_tail φ sk hφ δ hδ hδ2 x hd' B hBn g G hG hgn
    (B * ((c + 1 / c) / 2) * G * Real.sqrt (2 * Real.log (2 / δ')) / (2 * h)) (by positivity)
  simp only [not_lt, hf]
  refine this.trans (add_le_add_left (le_of_eq ?_) _)
  rw [mul_div_cancel₀ _ (by positivity : (2 * (h : ℝ)) ≠ 0), mul_pow _ (Real.sqrt _), Real.sq_sqrt (by linarith)]
  change 2 * Real.exp (-((B * ((c + 1 / c) / 2) * G) ^ 2 * (2 * Real.log (2 / δ')) / (2 * (B * ((c + 1 / c) / 2) * G) ^ 2))) = δ'
  rw [show (B * ((c + 1 / c) / 2) * G) ^ 2 * (2 * Real.log (2 / δ')) / (2 * (B * ((c + 1 / c) / 2) * G) ^ 2)
    = Real.log (2 / δ') by field_simp, ← Real.log_inv, inv_div, Real.exp_log (by positivity)]
  ring

/-- One halving is unbiased: for every function, in the RKHS or not, the expected mean over the first half is the mean
over all points. -/
theorem C50_unbiased (sk : X → X → ℝ) (hsk : IsPSD sk) (c : ℝ) (x : Fin (2 * h) → X)
    (hd : ∀ i : Fin h, 0 < sk (x (pairAt i false)) (x (pairAt i false)) + sk (x (pairAt i true)) (x (pairAt i true))
      - 2 * sk (x (pairAt i false)) (x (pairAt i true))) (f : Fin (2 * h) → ℝ) :
    ∫ u, avg (fun _ => 1) (fun t => f (gatherIdx (2 * h) ((ktHalf Real.sqrt sk (Ext.fin c) (drawSeq u) x).1 t)))
      ∂(uniformDraws h) = avg (fun _ => 1) f := by
  obtain ⟨H, _, _, φ, hφ⟩ := hsk.exists_feature
  have hd' : ∀ i : Fin h, φ (x (pairAt i false)) ≠ φ (x (pairAt i true)) := by
    intro i heq
    have h1 := hd i
    rw [dist_eq φ hφ, diff_fin, heq, sub_self, norm_zero] at h1
    norm_num at h1
  obtain ⟨dec, hrun, hdec⟩ := dec_exists φ hφ x c hd'
  set a := limit (fun i => ‖diff φ x i‖) c with ha
  have hh : (0 : ℝ) < h := by exact_mod_cast h_pos (h := h)
  set G : (Fin h → Bool) → ℝ := fun ε => avg (fun _ => 1) (fun t => f (pairAt t (ε t))) with hG
  have hm : ∀ u, avg (fun _ => 1) (fun t => f (gatherIdx (2 * h) ((ktHalf Real.sqrt sk (Ext.fin c) (drawSeq u) x).1 t)))
      = (fun e : ℕ → Bool => G fun i => e i) (Walk.ext (dec u)) := by
    intro u
    rw [hrun u]
    simp only [gatherIdx_coe, hG]
    have he : ∀ t : Fin h, Walk.ext (dec u) (t : ℕ) = dec u t := fun t => by unfold Walk.ext; rw [dif_pos t.2]
    simp only [he]
  simp only [hm]
  rw [Walk.integral_eq (diff φ x) a dec hdec (fun e : ℕ → Bool => G fun i => e i)]
  have h2 := Walk.E_flip (diff φ x) a h G
  have hsum : Walk.E (diff φ x) a h (fun e => (G fun i => e i) + (G fun i => !e i)) = 2 * avg (fun _ => 1) f := by
    rw [← Walk.E_const (diff φ x) a h (2 * avg (fun _ => 1) f)]
    congr 1
    funext e
    simp only [hG, avg, one_mul, Finset.sum_const, Finset.card_univ, Fintype.card_fin, nsmul_eq_mul, mul_one]
    rw [sum_pairs, ← add_div, ← Finset.sum_add_distrib]
    have : ∑ i : Fin h, (f (pairAt i (e i)) + f (pairAt i (!e i))) = ∑ i : Fin h, (f (pairAt i false) + f (pairAt i true)) := by
      refine Finset.sum_congr rfl fun i _ => ?_
      cases e i <;> simp [add_comm]
    rw [this]
    push_cast
    field_simp
  rw [Walk.E_add] at hsum
  linarith

end Coreax
