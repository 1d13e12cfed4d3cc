import Verif.Spec.Calculus
import Mathlib.Analysis.Calculus.Deriv.Basic
import Mathlib.Analysis.Calculus.Deriv.Comp
import Mathlib.Analysis.Calculus.FDeriv.Add
import Mathlib.Analysis.Calculus.FDeriv.Mul
import Mathlib.Analysis.Calculus.FDeriv.Pi
import Mathlib.Analysis.Calculus.Deriv.Pi

/-!
# Lemmas about gradients
-/

namespace Coreax.Spec

variable {d : ℕ} {x : Fin d → ℝ}

@[simp] theorem gradMap_apply (g v : Fin d → ℝ) : gradMap g v = ∑ i, g i * v i := by
  simp [gradMap]

theorem gradMap_single (g : Fin d → ℝ) (i : Fin d) : gradMap g (Pi.single i 1) = g i := by
  classical
  simp [gradMap_apply, Pi.single_apply]

theorem gradMap_ext {L : (Fin d → ℝ) →L[ℝ] ℝ} {g : Fin d → ℝ} (h : ∀ i, L (Pi.single i 1) = g i) : L = gradMap g := by
  classical
  ext v
  have : v = ∑ i, v i • (Pi.single i (1 : ℝ) : Fin d → ℝ) := by
    ext j
    simp [Finset.sum_apply, Pi.single_apply]
  rw [gradMap_apply]
  conv_lhs => rw [this]
  rw [map_sum]
  refine Finset.sum_congr rfl (fun i _ => ?_)
  rw [map_smul, h, smul_eq_mul, mul_comm]

theorem IsGrad.congr {f f' : (Fin d → ℝ) → ℝ} {g g' : Fin d → ℝ} (h : IsGrad f g x) (hf : ∀ z, f' z = f z)
    (hg : ∀ i, g' i = g i) : IsGrad f' g' x := by
  have : f' = f := funext hf
  have h2 : g' = g := funext hg
  rw [this, h2]
  exact h

theorem IsGrad.unique {f : (Fin d → ℝ) → ℝ} {g g' : Fin d → ℝ} (h : IsGrad f g x) (h' : IsGrad f g' x) : g = g' := by
  have := HasFDerivAt.unique h h'
  ext i
  rw [← gradMap_single g, ← gradMap_single g', this]

theorem isGrad_of_hasFDerivAt {f : (Fin d → ℝ) → ℝ} {L : (Fin d → ℝ) →L[ℝ] ℝ} (h : HasFDerivAt f L x) :
    IsGrad f (fun i => L (Pi.single i 1)) x := by
  unfold IsGrad
  rwa [← gradMap_ext (fun i => rfl)]

/-- A gradient contains all partial derivatives. -/
theorem IsGrad.partial {f : (Fin d → ℝ) → ℝ} {g : Fin d → ℝ} (h : IsGrad f g x) (i : Fin d) :
    HasDerivAt (fun t => f (Function.update x i t)) (g i) (x i) := by
  classical
  have h1 : HasFDerivAt f (gradMap g) (Function.update x i (x i)) := by rw [Function.update_eq_self]; exact h
  have := h1.comp_hasDerivAt (x i) (hasDerivAt_update x i (x i))
  rwa [gradMap_single] at this

theorem isGrad_const (c : ℝ) : IsGrad (fun _ : Fin d → ℝ => c) (fun _ => 0) x := by
  have := isGrad_of_hasFDerivAt (hasFDerivAt_const (𝕜 := ℝ) c x)
  exact this.congr (fun _ => rfl) (fun _ => by simp)

theorem isGrad_coord (i : Fin d) : IsGrad (fun x : Fin d → ℝ => x i) (fun j => if i = j then 1 else 0) x := by
  have h : HasFDerivAt (fun x : Fin d → ℝ => x i) (ContinuousLinearMap.proj (R := ℝ) (φ := fun _ : Fin d => ℝ) i) x :=
    (ContinuousLinearMap.proj (R := ℝ) (φ := fun _ : Fin d => ℝ) i).hasFDerivAt
  have := isGrad_of_hasFDerivAt h
  exact this.congr (fun _ => rfl) (fun j => by simp [Pi.single_apply])

theorem IsGrad.add {f f' : (Fin d → ℝ) → ℝ} {g g' : Fin d → ℝ} (h : IsGrad f g x) (h' : IsGrad f' g' x) :
    IsGrad (fun z => f z + f' z) (fun i => g i + g' i) x := by
  have := isGrad_of_hasFDerivAt (HasFDerivAt.add h h')
  exact this.congr (fun _ => rfl) (fun i => by
    rw [ContinuousLinearMap.add_apply, gradMap_single, gradMap_single])

theorem IsGrad.mul {f f' : (Fin d → ℝ) → ℝ} {g g' : Fin d → ℝ} (h : IsGrad f g x) (h' : IsGrad f' g' x) :
    IsGrad (fun z => f z * f' z) (fun i => f x * g' i + f' x * g i) x := by
  have := isGrad_of_hasFDerivAt (HasFDerivAt.mul h h')
  exact this.congr (fun _ => rfl) (fun i => by
    rw [ContinuousLinearMap.add_apply, ContinuousLinearMap.smul_apply, ContinuousLinearMap.smul_apply, gradMap_single,
      gradMap_single, smul_eq_mul, smul_eq_mul])

theorem IsGrad.const_mul {f : (Fin d → ℝ) → ℝ} {g : Fin d → ℝ} (h : IsGrad f g x) (c : ℝ) :
    IsGrad (fun z => c * f z) (fun i => c * g i) x :=
  ((isGrad_const c).mul h).congr (fun _ => rfl) (fun i => by simp)

theorem IsGrad.neg {f : (Fin d → ℝ) → ℝ} {g : Fin d → ℝ} (h : IsGrad f g x) : IsGrad (fun z => -f z) (fun i => -g i) x :=
  (h.const_mul (-1)).congr (fun _ => by ring) (fun i => by ring)

theorem IsGrad.sub {f f' : (Fin d → ℝ) → ℝ} {g g' : Fin d → ℝ} (h : IsGrad f g x) (h' : IsGrad f' g' x) :
    IsGrad (fun z => f z - f' z) (fun i => g i - g' i) x :=
  (h.add h'.neg).congr (fun _ => by ring) (fun i => by ring)

theorem IsGrad.sum {ι : Type*} (s : Finset ι) {f : ι → (Fin d → ℝ) → ℝ} {g : ι → Fin d → ℝ}
    (h : ∀ a ∈ s, IsGrad (f a) (g a) x) : IsGrad (fun z => ∑ a ∈ s, f a z) (fun i => ∑ a ∈ s, g a i) x := by
  classical
  induction s using Finset.induction_on with
  | empty => simpa using isGrad_const (x := x) 0
  | insert a s ha ih =>
    simp only [Finset.sum_insert ha]
    exact (h a (Finset.mem_insert_self _ _)).add (ih fun b hb => h b (Finset.mem_insert_of_mem hb))

/-- Chain rule with a scalar function. -/
theorem IsGrad.scalar {f : (Fin d → ℝ) → ℝ} {g : Fin d → ℝ} (h : IsGrad f g x) {φ : ℝ → ℝ} {φ' : ℝ}
    (hφ : HasDerivAt φ φ' (f x)) : IsGrad (fun z => φ (f z)) (fun i => φ' * g i) x := by
  have := isGrad_of_hasFDerivAt (hφ.comp_hasFDerivAt x h)
  exact this.congr (fun _ => rfl) (fun i => by
    rw [ContinuousLinearMap.smul_apply, gradMap_single, smul_eq_mul])

theorem isGrad_dot (y : Fin d → ℝ) : IsGrad (fun x => ∑ i, x i * y i) y x := by
  have := IsGrad.sum (x := x) Finset.univ (fun i _ => (isGrad_coord (x := x) i).const_mul (y i))
  exact this.congr (fun _ => Finset.sum_congr rfl fun i _ => by ring) (fun i => by simp)

theorem isGrad_sqDist_left (y : Fin d → ℝ) :
    IsGrad (fun x => ∑ i, (x i - y i) * (x i - y i)) (fun i => 2 * (x i - y i)) x := by
  have hi : ∀ i, IsGrad (fun x : Fin d → ℝ => x i - y i) (fun j => if i = j then 1 else 0) x := fun i =>
    ((isGrad_coord i).sub (isGrad_const (y i))).congr (fun _ => rfl) (fun j => by simp)
  have := IsGrad.sum (x := x) Finset.univ (fun i _ => (hi i).mul (hi i))
  refine this.congr (fun _ => rfl) (fun i => ?_)
  simp only [mul_ite, mul_one, mul_zero, Finset.sum_add_distrib, Finset.sum_ite_eq', Finset.mem_univ, if_true]
  ring

theorem isGrad_sqDist_right (y : Fin d → ℝ) :
    IsGrad (fun x => ∑ i, (y i - x i) * (y i - x i)) (fun i => -(2 * (y i - x i))) x :=
  (isGrad_sqDist_left y).congr (fun _ => Finset.sum_congr rfl fun i _ => by ring) (fun i => by ring)

/-- Gradient of a function of the squared distance. -/
theorem isGrad_radial {φ : ℝ → ℝ} {φ' : ℝ} (y : Fin d → ℝ)
    (h : HasDerivAt φ φ' (∑ i, (x i - y i) * (x i - y i))) :
    IsGrad (fun x => φ (∑ i, (x i - y i) * (x i - y i))) (fun i => φ' * (2 * (x i - y i))) x :=
  (isGrad_sqDist_left y).scalar h

/-- Divergence of a radial field. -/
theorem isDiv_radial {h : ℝ → ℝ} {h' : ℝ} (y : Fin d → ℝ)
    (hh : HasDerivAt h h' (∑ i, (x i - y i) * (x i - y i))) :
    IsDiv (fun x i => h (∑ i, (x i - y i) * (x i - y i)) * (x i - y i))
      (2 * (∑ i, (x i - y i) * (x i - y i)) * h' + d * h (∑ i, (x i - y i) * (x i - y i))) x := by
  have hi : ∀ i, IsGrad (fun x : Fin d → ℝ => x i - y i) (fun j => if i = j then 1 else 0) x := fun i =>
    ((isGrad_coord i).sub (isGrad_const (y i))).congr (fun _ => rfl) (fun j => by simp)
  refine ⟨_, fun i => (isGrad_radial y hh).mul (hi i), ?_⟩
  simp only [if_true, mul_one, Finset.sum_add_distrib, Finset.sum_const, Finset.card_univ, Fintype.card_fin, nsmul_eq_mul]
  rw [add_comm, Finset.mul_sum, Finset.sum_mul]
  congr 1
  exact Finset.sum_congr rfl fun i _ => by ring

theorem IsDiv.congr {F F' : (Fin d → ℝ) → Fin d → ℝ} {v v' : ℝ} (h : IsDiv F v x) (hF : ∀ z i, F' z i = F z i)
    (hv : v' = v) : IsDiv F' v' x := by
  have : F' = F := funext fun z => funext (hF z)
  rw [this, hv]
  exact h

theorem IsDiv.unique {F : (Fin d → ℝ) → Fin d → ℝ} {v v' : ℝ} (h : IsDiv F v x) (h' : IsDiv F v' x) : v = v' := by
  obtain ⟨G, hG, rfl⟩ := h
  obtain ⟨G', hG', rfl⟩ := h'
  exact Finset.sum_congr rfl fun i _ => by rw [(hG i).unique (hG' i)]

theorem isGrad_fderiv {f : (Fin d → ℝ) → ℝ} (h : DifferentiableAt ℝ f x) :
    IsGrad f (fun i => fderiv ℝ f x (Pi.single i 1)) x := isGrad_of_hasFDerivAt h.hasFDerivAt

theorem isDiv_fderiv {F : (Fin d → ℝ) → Fin d → ℝ} (h : DifferentiableAt ℝ F x) :
    IsDiv F (∑ i, fderiv ℝ F x (Pi.single i 1) i) x := by
  refine ⟨fun i j => fderiv ℝ F x (Pi.single j 1) i, fun i => ?_, rfl⟩
  have := isGrad_of_hasFDerivAt ((hasFDerivAt_pi'.1 h.hasFDerivAt) i)
  exact this.congr (fun _ => rfl) (fun j => by simp)

theorem IsGrad.differentiableAt {f : (Fin d → ℝ) → ℝ} {g : Fin d → ℝ} (h : IsGrad f g x) : DifferentiableAt ℝ f x :=
  HasFDerivAt.differentiableAt h

theorem IsDiv.differentiableAt {F : (Fin d → ℝ) → Fin d → ℝ} {v : ℝ} (h : IsDiv F v x) : DifferentiableAt ℝ F x := by
  obtain ⟨G, hG, _⟩ := h
  exact differentiableAt_pi.2 fun i => (hG i).differentiableAt

end Coreax.Spec
