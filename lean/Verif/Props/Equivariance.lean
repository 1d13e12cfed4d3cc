import Verif.Props.SqrtKernel
import Verif.Lemmas.KernelGrad
import Verif.Props.Metrics
import Verif.Props.Median
import Verif.Props.HerdingLaws
import Verif.Props.Softmax
import Verif.Model.Random

/-!
# C68: units, position and orientation of the data, scale of the kernel, order of the rows

What the solvers select when the data are transformed (`C68_…`): nothing changes if all kernel values on the data are multiplied by the same positive number, so nothing changes under
translations, rotations and reflections, or in other units if the length scale is given in them; the order of the rows matters for ties only.
-/

set_option linter.unusedSectionVars false

namespace Coreax

open Spec

/-! ### Kernel values multiplied by a number -/

section
variable {X X' : Type*} [Zero X] [Zero X'] {n m : ℕ}

/-- A kernel mean is linear in the kernel. -/
theorem computeMean_scale (big a : ℝ) (k : X → X → ℝ) (k' : X' → X' → ℝ) (x : Fin n → X) (w : Fin n → ℝ) (y : Fin m → X) (v : Fin m → ℝ) (x' : Fin n → X') (y' : Fin m → X')
    (h : ∀ i j, k' (x' i) (y' j) = a * k (x i) (y j)) (h' : ∀ i j, k' (y' j) (x' i) = a * k (y j) (x i)) (axis : Axis) (bs : PyTree (Option ℤ)) :
    computeMean big k' ⟨x', w⟩ ⟨y', v⟩ axis bs = (computeMean big k ⟨x, w⟩ ⟨y, v⟩ axis bs).map (List.map (a * ·)) := by
  by_cases hbs : ValidBlock bs
  · by_cases hz : n = 0 ∨ m = 0
    · rw [(C05_mean_errors big k' _ _ axis bs).1 hbs hz, (C05_mean_errors big k _ _ axis bs).1 hbs hz]
      rfl
    · have hn : 0 < n := by omega
      have hm : 0 < m := by omega
      obtain ⟨p, q, hpq⟩ := treeLeavesRepeat_of_valid hbs
      have key : ∀ {n m : ℕ} (x : Fin n → X) (w : Fin n → ℝ) (y : Fin m → X) (v : Fin m → ℝ) (x' : Fin n → X') (y' : Fin m → X'),
          (∀ i j, k' (x' i) (y' j) = a * k (x i) (y j)) → (List.ofFn fun i => ∑ j, k' (x' i) (y' j) * normWeightsPZ big v j)
            = (List.ofFn fun i => ∑ j, k (x i) (y j) * normWeightsPZ big v j).map (a * ·) := by
        intro n m x w y v x' y' h
        rw [List.map_ofFn]
        congr 1
        funext i
        simp only [Function.comp_def, h, Finset.mul_sum, mul_assoc]
      cases axis with
      | zero =>
        simp only [computeMean, hpq, columnMean_eq big k hm hn, columnMean_eq big k' hm hn, Except.map]
        rw [key y v x w y' x' fun i j => h' j i]
      | one =>
        simp only [computeMean, hpq, columnMean_eq big k hn hm, columnMean_eq big k' hn hm, Except.map]
        rw [key x w y v x' y' h]
      | none =>
        simp only [computeMean, hpq, columnMean_eq big k hn hm, columnMean_eq big k' hn hm, Except.map, List.map_cons, List.map_nil]
        congr 2
        simp only [h, Finset.mul_sum]
        exact Finset.sum_congr rfl fun i _ => Finset.sum_congr rfl fun j _ => by ring
  · rw [(C05_mean_errors big k' _ _ axis bs).2.2 hbs, (C05_mean_errors big k _ _ axis bs).2.2 hbs]
    rfl

theorem keyMax_scale_le {a : ℝ} (ha : 0 < a) (x y : Ext ℝ) : (Ext.scale a x).keyMax ≤ (Ext.scale a y).keyMax ↔ x.keyMax ≤ y.keyMax := by
  cases x <;> cases y <;> simp [Ext.scale, Ext.keyMax, mul_le_mul_iff_right₀ ha, -WithTop.coe_mul, -WithBot.coe_mul]

theorem keyMin_scale_le {a : ℝ} (ha : 0 < a) (x y : Ext ℝ) : (Ext.scale a x).keyMin ≤ (Ext.scale a y).keyMin ↔ x.keyMin ≤ y.keyMin := by
  cases x <;> cases y <;> simp [Ext.scale, Ext.keyMin, mul_le_mul_iff_right₀ ha, -WithTop.coe_mul, -WithBot.coe_mul]

theorem scale_eq_nan {a : ℝ} (x : Ext ℝ) : Ext.scale a x = .nan ↔ x = .nan := by cases x <;> simp [Ext.scale]

/-- The first maximum depends on the order of the values only. -/
theorem argmax_congr {α β γ : Type*} [LinearOrder β] [LinearOrder γ] (f : α → β) (g : α → γ) (h : ∀ x y, f x ≤ f y ↔ g x ≤ g y) (l : List α) : l.argmax f = l.argmax g := by
  have hlt : ∀ x y, f x < f y ↔ g x < g y := fun x y => by rw [← not_le, ← not_le, h]
  unfold List.argmax
  congr 1
  funext a b
  simp only [hlt]

theorem argmin_congr {α β γ : Type*} [LinearOrder β] [LinearOrder γ] (f : α → β) (g : α → γ) (h : ∀ x y, f x ≤ f y ↔ g x ≤ g y) (l : List α) : l.argmin f = l.argmin g := by
  have hlt : ∀ x y, f x < f y ↔ g x < g y := fun x y => by rw [← not_le, ← not_le, h]
  unfold List.argmin
  congr 1
  funext a b
  simp only [hlt]

theorem nanargmax_scale {a : ℝ} (ha : 0 < a) (f : Fin n → Ext ℝ) : nanargmax (fun j => Ext.scale a (f j)) = nanargmax f := by
  unfold nanargmax
  simp only [scale_eq_nan]
  rw [argmax_congr _ (fun i => (f i).keyMax) (fun x y => keyMax_scale_le ha _ _)]

theorem nanargmin_scale {a : ℝ} (ha : 0 < a) (f : Fin n → Ext ℝ) : nanargmin (fun j => Ext.scale a (f j)) = nanargmin f := by
  unfold nanargmin
  simp only [scale_eq_nan]
  rw [argmin_congr _ (fun i => (f i).keyMin) (fun x y => keyMin_scale_le ha _ _)]

theorem scale_div_fin {a : ℝ} (ha : 0 < a) (x : Ext ℝ) (s : ℝ) : Ext.scale a x / Ext.fin s = Ext.scale a (x / Ext.fin s) := by
  conv_lhs => rw [← Ext.scale_one (Ext.fin s)]
  rw [Ext.div_scale ha one_pos, div_one]

theorem residual_scale {a : ℝ} (ha : 0 < a) (rm : Fin n → ℝ) (pen : Fin n → Ext ℝ) (size : ℕ) (j : Fin n) :
    herdingResidual (fun j => a * rm j) (fun j => Ext.scale a (pen j)) size j = Ext.scale a (herdingResidual rm pen size j) := by
  unfold herdingResidual
  rw [scale_div_fin ha, show Ext.fin (a * rm j) = Ext.scale a (Ext.fin (rm j)) from rfl, Ext.sub_scale]

variable [NeZero n]

theorem scatterSet_scale (a : ℝ) (ord : List (Fin m)) (idx : Fin m → ℤ) (v : Fin m → Ext ℝ) (p : Fin n → Ext ℝ) :
    scatterSet ord (fun j => Ext.scale a (p j)) idx (fun t => Ext.scale a (v t)) = fun j => Ext.scale a (scatterSet ord p idx v j) := by
  unfold scatterSet
  induction ord generalizing p with
  | nil => rfl
  | cons t l ih =>
    simp only [List.foldl_cons]
    rw [← ih]
    congr 1
    cases scatterIdx n (idx t) with
    | none => rfl
    | some j =>
      funext i
      by_cases hi : i = j
      · subst hi; simp
      · simp [Function.update_of_ne hi]

theorem maskedPenalty_scale (a : ℝ) (w : Fin n → ℝ) (unique : Bool) (ord : List (Fin m)) (cw : Fin m → ℝ) (i : Fin m) (idx : Fin m → ℤ) (pen : Fin n → Ext ℝ) :
    maskedPenalty w unique ord cw i idx (fun j => Ext.scale a (pen j)) = fun j => Ext.scale a (maskedPenalty w unique ord cw i idx pen j) := by
  have hv : (fun j => if w j > 0 then Ext.scale a (pen j) else Ext.nan) = fun j => Ext.scale a (if w j > 0 then pen j else Ext.nan) := by
    funext j
    split_ifs <;> rfl
  unfold maskedPenalty
  simp only [hv]
  cases unique
  · rfl
  · rw [if_pos rfl, if_pos rfl, ← scatterSet_scale]
    congr 1
    funext t
    split_ifs <;> rfl

theorem kernelColumn_scale (a : ℝ) (k : X → X → ℝ) (k' : X' → X' → ℝ) (x : Fin n → X) (x' : Fin n → X') (h : ∀ i j, k' (x' i) (x' j) = a * k (x i) (x j)) (i : ℤ) :
    kernelColumn k' x' i = fun j => Ext.scale a (kernelColumn k x i j) := by
  funext j
  simp only [kernelColumn, h, Ext.scale]

theorem setAt_scale (a : ℝ) (p : Fin n → Ext ℝ) (i : ℤ) (v : Ext ℝ) : setAt (fun j => Ext.scale a (p j)) i (Ext.scale a v) = fun j => Ext.scale a (setAt p i v j) := by
  unfold setAt
  cases scatterIdx n i with
  | none => rfl
  | some j =>
    funext l
    by_cases hl : l = j
    · subst hl; simp
    · simp [Function.update_of_ne hl]

/-- Greedy selection with kernel values multiplied by `a` and a selection function that does not notice it. -/
theorem greedySelection_scale {a : ℝ} (ha : 0 < a) (big : ℝ) (k : X → X → ℝ) (k' : X' → X' → ℝ) (x : Fin n → X) (w : Fin n → ℝ) (x' : Fin n → X')
    (h : ∀ i j, k' (x' i) (x' j) = a * k (x i) (x j)) (bs : PyTree (Option ℤ)) (unique : Bool) (sel sel' : Selection n ℝ)
    (hsel : ∀ i p s, sel' i (fun j => Ext.scale a (p j)) s = sel i p s) (out : ℕ) (c : Data m ℤ ℝ) (ord : List (Fin (m + (out - m)))) :
    greedySelection big k' ⟨x', w⟩ bs unique sel' out c ord = greedySelection big k ⟨x, w⟩ bs unique sel out c ord := by
  unfold greedySelection
  have hinit : initPenalty big k' ⟨x', w⟩ bs (padIndices c out)
      = (initPenalty big k ⟨x, w⟩ bs (padIndices c out)).map fun r => (fun j => Ext.scale a (r.1 j), r.2) := by
    unfold initPenalty Data.ofArray
    simp only
    rw [computeMean_scale big a k k' x (fun _ => 1) (fun t => x (gatherIdx n ((padIndices c out).data t))) (padIndices c out).weights x'
      (fun t => x' (gatherIdx n ((padIndices c out).data t))) (fun i j => h _ _) (fun i j => h _ _)]
    cases computeMean big k ⟨x, fun _ => 1⟩ ⟨fun t => x (gatherIdx n ((padIndices c out).data t)), (padIndices c out).weights⟩ .one bs with
    | error e => rfl
    | ok l =>
      simp only [Except.map, Except.ok.injEq, Prod.mk.injEq, and_true]
      funext j
      simp only [Ext.scale, asVec, Ext.fin.injEq]
      have : (l.map (a * ·)).getD j 0 = a * l.getD j 0 := by
        have := List.getD_map (l := l) (d := (0 : ℝ)) (n := (j : ℕ)) (a * ·)
        simpa using this
      rw [this]
      ring
  simp only [hinit]
  cases initPenalty big k ⟨x, w⟩ bs (padIndices c out) with
  | error e => rfl
  | ok r =>
    simp only [Except.map]
    have H := forLoop_rel (P := fun _ (s s' : GreedyState n (m + (out - m)) ℝ) => s'.idx = s.idx ∧ s'.pen = (fun j => Ext.scale a (s.pen j)) ∧ s'.size = s.size) out
      (fun i => greedyBody k x w unique ord (padIndices c out).weights sel (i.castLE (out_le_padded m out)))
      (fun i => greedyBody k' x' w unique ord (padIndices c out).weights sel' (i.castLE (out_le_padded m out)))
      ⟨(padIndices c out).data, r.1, r.2⟩ ⟨(padIndices c out).data, fun j => Ext.scale a (r.1 j), r.2⟩ ⟨rfl, rfl, rfl⟩ (by
        rintro i s s' ⟨h1, h2, h3⟩
        have hown : subtractOwn k' x' (padIndices c out).weights (i.castLE (out_le_padded m out)) s'
            = fun j => Ext.scale a (subtractOwn k x (padIndices c out).weights (i.castLE (out_le_padded m out)) s j) := by
          unfold subtractOwn
          rw [h1, h2, kernelColumn_scale a k k' x x' h]
          split_ifs
          · funext j
            rw [Ext.sub_scale]
          · rfl
        unfold greedyBody
        simp only [hown, h1, h3, maskedPenalty_scale, hsel, kernelColumn_scale a k k' x x' h, Ext.add_scale, true_and, and_true]
        cases unique
        · rfl
        · exact setAt_scale a _ _ .pinf)
    rw [H.1]

/-- C68: kernel herding selects the same points if all kernel values on the data are multiplied by the same positive number: in refinements and reductions, from every coreset, in the
probabilistic mode with a temperature multiplied by it. The Gramian row-mean, i.e. the solver state, is multiplied. -/
theorem C68_herding {a : ℝ} (ha : 0 < a) (big : ℝ) (k : X → X → ℝ) (k' : X' → X' → ℝ) (x : Fin n → X) (w : Fin n → ℝ) (x' : Fin n → X')
    (h : ∀ i j, k' (x' i) (x' j) = a * k (x i) (x j)) (prob prob' : Option (Draw n ℝ))
    (hprob : (prob = none ∧ prob' = none) ∨ ∃ (choice : SingleChoice n) (T : ℝ), prob = some (softmaxDraw choice T) ∧ prob' = some (softmaxDraw choice (a * T)))
    (unique : Bool) (bs : PyTree (Option ℤ)) (size : ℕ) (c : Data m ℤ ℝ) (state : Option (List ℝ)) (ord : List (Fin (m + (size - m))))
    (ord' : List (Fin (size + (size - size)))) :
    herdingRefine big k' prob' unique bs size ⟨x', w⟩ c (state.map (List.map (a * ·))) ord
      = (herdingRefine big k prob unique bs size ⟨x, w⟩ c state ord).map (fun r => (r.1, r.2.map (a * ·))) ∧
    herdingReduce big k' prob' unique bs size ⟨x', w⟩ (state.map (List.map (a * ·))) ord'
      = (herdingReduce big k prob unique bs size ⟨x, w⟩ state ord').map (fun r => (r.1, r.2.map (a * ·))) := by
  have key : ∀ {m : ℕ} (c : Data m ℤ ℝ) (ord : List (Fin (m + (size - m)))), herdingRefine big k' prob' unique bs size ⟨x', w⟩ c (state.map (List.map (a * ·))) ord
      = (herdingRefine big k prob unique bs size ⟨x, w⟩ c state ord).map (fun r => (r.1, r.2.map (a * ·))) := by
    intro m c ord
    unfold herdingRefine
    have hrow : cachedRowMean big k' ⟨x', w⟩ bs (state.map (List.map (a * ·))) = (cachedRowMean big k ⟨x, w⟩ bs state).map (List.map (a * ·)) := by
      cases state with
      | some l => rfl
      | none =>
        simp only [cachedRowMean, gramianRowMean, Option.map_none]
        exact computeMean_scale big a k k' x w x w x' x' (fun i j => h i j) (fun i j => h j i) .zero bs
    rw [hrow]
    cases cachedRowMean big k ⟨x, w⟩ bs state with
    | error e => rfl
    | ok rm =>
      simp only [Except.map]
      have hrm : asVec n (rm.map (a * ·)) = fun j => a * asVec n rm j := by
        funext j
        have := List.getD_map (l := rm) (d := (0 : ℝ)) (n := (j : ℕ)) (a * ·)
        simpa [asVec] using this
      rw [greedySelection_scale ha big k k' x w x' h bs unique (herdingSelect prob (asVec n rm)) (herdingSelect prob' (asVec n (rm.map (a * ·)))) ?_ size c ord]
      · cases greedySelection big k ⟨x, w⟩ bs unique (herdingSelect prob (asVec n rm)) size c ord <;> rfl
      · intro i p s
        unfold herdingSelect
        simp only [hrm]
        have hres : herdingResidual (fun j => a * asVec n rm j) (fun j => Ext.scale a (p j)) s = fun j => Ext.scale a (herdingResidual (asVec n rm) p s j) := by
          funext j
          exact residual_scale ha _ _ _ _
        rw [hres]
        rcases hprob with ⟨h1, h2⟩ | ⟨choice, T, h1, h2⟩
        · rw [h1, h2]
          exact nanargmax_scale ha _
        · rw [h1, h2]
          simp only [softmaxDraw, herdingProbs]
          congr 2
          funext j
          rw [show Ext.fin (a * T) = Ext.scale a (Ext.fin T) from rfl, Ext.div_scale ha ha, div_self ha.ne', Ext.scale_one]
  refine ⟨key c ord, ?_⟩
  unfold herdingReduce
  cases (initialCoresubset 0 size n : Except Err (Data size ℤ ℝ)) with
  | error e => rfl
  | ok c => exact key c ord'

/-- Twice the kernel, at twice the temperature. -/
example (choice : SingleChoice 3) := C68_herding (m := 1) (a := 2) (by norm_num) 1000 (fun a b : ℝ => a * b + 1) (fun a b : ℝ => 2 * (a * b + 1)) (![1, 2, 5] : Fin 3 → ℝ) ![1, 0, 2] (![1, 2, 5] : Fin 3 → ℝ) (fun _ _ => rfl) _ _ (.inr ⟨choice, 1 / 1000, rfl, rfl⟩) true (.leaf none) 2
  ⟨fun _ => 1, fun _ => 1⟩ none [0, 1] [0, 1]

/-- C68: so does Stein thinning, with the terms of the regularisation multiplied alike (in particular without regularisation). -/
theorem C68_stein {a : ℝ} (ha : 0 < a) (big : ℝ) (k : X → X → ℝ) (k' : X' → X' → ℝ) (x : Fin n → X) (w : Fin n → ℝ) (x' : Fin n → X')
    (h : ∀ i j, k' (x' i) (x' j) = a * k (x i) (x j)) (unique : Bool) (bs : PyTree (Option ℤ)) (size : ℕ) (c : Data m ℤ ℝ) (reg : Option (SteinReg n ℝ))
    (ord : List (Fin (m + (size - m)))) (ord' : List (Fin (size + (size - size)))) :
    steinRefine big k' unique bs size ⟨x', w⟩ c (reg.map fun r => ⟨fun j => a * r.lap j, fun j => a * r.logp j⟩) ord = steinRefine big k unique bs size ⟨x, w⟩ c reg ord ∧
    steinReduce big k' unique bs size ⟨x', w⟩ (reg.map fun r => ⟨fun j => a * r.lap j, fun j => a * r.logp j⟩) ord' = steinReduce big k unique bs size ⟨x, w⟩ reg ord' := by
  have hsel : ∀ (d lap logp : Fin n → ℝ) i p s, steinSelect (fun j => a * d j) (fun j => a * lap j) (fun j => a * logp j) i (fun j => Ext.scale a (p j)) s = steinSelect d lap logp i p s := by
    intro d lap logp i p s
    unfold steinSelect
    conv_rhs => rw [← nanargmin_scale ha]
    congr 1
    funext j
    unfold steinObjective
    have h2 : Ext.fin 2 * Ext.scale a (p j) = Ext.scale a (Ext.fin 2 * p j) := by
      conv_lhs => rw [← Ext.scale_one (Ext.fin 2)]
      rw [Ext.mul_scale one_pos ha, one_mul]
    have h3 : Ext.fin (((i : ℝ) + 1) * (a * logp j)) = Ext.scale a (Ext.fin (((i : ℝ) + 1) * logp j)) := by
      simp only [Ext.scale, Ext.fin.injEq]
      ring
    rw [h2, h3, show ∀ v, Ext.fin (a * v) = Ext.scale a (Ext.fin v) from fun _ => rfl, show ∀ v, Ext.fin (a * v) = Ext.scale a (Ext.fin v) from fun _ => rfl, Ext.add_scale, Ext.add_scale, Ext.sub_scale]
  have key : ∀ {m : ℕ} (c : Data m ℤ ℝ) (ord : List (Fin (m + (size - m)))),
      steinRefine big k' unique bs size ⟨x', w⟩ c (reg.map fun r => ⟨fun j => a * r.lap j, fun j => a * r.logp j⟩) ord = steinRefine big k unique bs size ⟨x, w⟩ c reg ord := by
    intro m c ord
    unfold steinRefine
    cases reg with
    | none =>
      simp only [Option.map_none, h]
      refine greedySelection_scale ha big k k' x w x' h bs unique _ _ (fun i p s => ?_) size c ord
      have := hsel (fun j => k (x j) (x j)) (fun _ => 0) (fun _ => 0) i p s
      simpa using this
    | some r =>
      simp only [Option.map_some, h]
      exact greedySelection_scale ha big k k' x w x' h bs unique _ _ (fun i p s => hsel _ _ _ i p s) size c ord
  refine ⟨key c ord, ?_⟩
  unfold steinReduce
  cases (initialCoresubset 0 size n : Except Err (Data size ℤ ℝ)) with
  | error e => rfl
  | ok c => exact key c ord'

example := C68_stein (m := 1) (a := 2) (by norm_num) 1000 (fun a b : ℝ => a * b + 1) (fun a b : ℝ => 2 * (a * b + 1)) (![1, 2, 5] : Fin 3 → ℝ) ![1, 0, 2] (![1, 2, 5] : Fin 3 → ℝ) (fun _ _ => rfl) true (.leaf none) 2 ⟨fun _ => 1, fun _ => 1⟩ (some ⟨![1, 2, 3], ![0, 1, 0]⟩) [0, 1] [0, 1]

/-- C68: the MMD is multiplied by the square root. -/
theorem C68_mmd {m : ℕ} {a : ℝ} (ha : 0 ≤ a) (big : ℝ) (k : X → X → ℝ) (k' : X' → X' → ℝ) (x : Fin n → X) (w : Fin n → ℝ) (y : Fin m → X) (v : Fin m → ℝ) (x' : Fin n → X') (y' : Fin m → X')
    (hxx : ∀ i j, k' (x' i) (x' j) = a * k (x i) (x j)) (hyy : ∀ i j, k' (y' i) (y' j) = a * k (y i) (y j)) (hxy : ∀ i j, k' (x' i) (y' j) = a * k (x i) (y j))
    (hyx : ∀ i j, k' (y' j) (x' i) = a * k (y j) (x i)) (bs : PyTree (Option ℤ)) :
    mmdCompute big k' ⟨x', w⟩ ⟨y', v⟩ bs = (mmdCompute big k ⟨x, w⟩ ⟨y, v⟩ bs).map (Real.sqrt a * ·) := by
  have hs : ∀ e : Except Err (List ℝ), meanScalar (e.map (List.map (a * ·))) = (meanScalar e).map (a * ·) := by
    intro e
    cases e with
    | error e => rfl
    | ok l => cases l <;> simp [Except.map, meanScalar]
  have hsq : mmdSquared big k' ⟨x', w⟩ ⟨y', v⟩ bs = (mmdSquared big k ⟨x, w⟩ ⟨y, v⟩ bs).map (a * ·) := by
    unfold mmdSquared
    split
    · rename_i p q hpq
      rw [computeMean_scale big a k k' x w x w x' x' hxx (fun i j => hxx j i), computeMean_scale big a k k' y v y v y' y' hyy (fun i j => hyy j i),
        computeMean_scale big a k k' x w y v x' y' hxy hyx, hs, hs, hs]
      cases meanScalar (computeMean big k ⟨x, w⟩ ⟨x, w⟩ .none (.node [.leaf p, .leaf p])) with
      | error e => rfl
      | ok xx =>
        simp only [Except.map]
        cases meanScalar (computeMean big k ⟨y, v⟩ ⟨y, v⟩ .none (.node [.leaf q, .leaf q])) with
        | error e => rfl
        | ok yy =>
          simp only
          cases meanScalar (computeMean big k ⟨x, w⟩ ⟨y, v⟩ .none (.node [.leaf p, .leaf q])) with
          | error e => rfl
          | ok xy =>
            simp only [Except.ok.injEq]
            ring
    · rfl
  unfold mmdCompute
  rw [hsq]
  cases mmdSquared big k ⟨x, w⟩ ⟨y, v⟩ bs with
  | error e => rfl
  | ok s =>
    simp only [Except.map, clipSqrt, Except.ok.injEq]
    rw [← Real.sqrt_mul ha]
    congr 1
    rw [mul_max_of_nonneg _ _ ha, mul_zero]

example := C68_mmd (a := 2) (by norm_num) 1000 (fun a b : ℝ => a * b + 1) (fun a b : ℝ => 2 * (a * b + 1)) (![1, 2, 5] : Fin 3 → ℝ) ![1, 0, 2] ![3, 4] ![1, 1] (![1, 2, 5] : Fin 3 → ℝ) ![3, 4] (fun _ _ => rfl) (fun _ _ => rfl) (fun _ _ => rfl) (fun _ _ => rfl) (.leaf none)

theorem sum_scale {a : ℝ} (f : Fin m → Ext ℝ) : Ext.sum (fun t => Ext.scale a (f t)) = Ext.scale a (Ext.sum f) := by
  unfold Ext.sum
  have : ∀ (l : List (Ext ℝ)) (z : Ext ℝ), (l.map (Ext.scale a)).foldl (· + ·) (Ext.scale a z) = Ext.scale a (l.foldl (· + ·) z) := by
    intro l
    induction l with
    | nil => intro z; rfl
    | cons b l ih =>
      intro z
      simp only [List.map_cons, List.foldl_cons]
      rw [Ext.add_scale, ih]
  have h0 : Ext.fin (0 : ℝ) = Ext.scale a (Ext.fin 0) := by simp [Ext.scale]
  rw [show (List.ofFn fun t => Ext.scale a (f t)) = (List.ofFn f).map (Ext.scale a) by rw [List.map_ofFn]; rfl]
  conv_lhs => rw [h0]
  exact this _ _

theorem max0_scale {a : ℝ} (ha : 0 < a) (x : Ext ℝ) : Ext.max0 (Ext.scale a x) = Ext.scale a (Ext.max0 x) := by
  cases x <;> simp [Ext.max0, Ext.scale, mul_max_of_nonneg _ _ ha.le]

/-- C68: randomly pivoted Cholesky selects the same points, if the draw depends on the ratios of its weights only. -/
theorem C68_rpcholesky {a : ℝ} (ha : 0 < a) (k : X → X → ℝ) (k' : X' → X' → ℝ) (x : Fin n → X) (x' : Fin n → X') (h : ∀ i j, k' (x' i) (x' j) = a * k (x i) (x j)) (unique : Bool)
    (draw : PivotDraw n ℝ) (hdraw : ∀ i p, draw i (fun j => Ext.scale a (p j)) = draw i p) (size : ℕ) (state : Option (Fin n → Ext ℝ)) :
    rpcReduce Real.sqrt k' x' unique draw size (state.map fun s j => Ext.scale a (s j))
      = (rpcReduce Real.sqrt k x unique draw size state).map fun r => (r.1, fun j => Ext.scale a (r.2 j)) := by
  unfold rpcReduce
  cases (initialCoresubset ((n : ℤ) + 1) size n : Except Err (Data size ℤ ℝ)) with
  | error e => rfl
  | ok c =>
    have hs := Real.sqrt_pos.2 ha
    have H := forLoop_rel (P := fun _ (s s' : RPCState n size ℝ) => s'.idx = s.idx ∧ s'.residual = (fun j => Ext.scale a (s.residual j)) ∧
        s'.approx = fun j t => Ext.scale (Real.sqrt a) (s.approx j t)) size
      (rpcBody Real.sqrt k x unique draw) (rpcBody Real.sqrt k' x' unique draw)
      ⟨rpcDiagonal k x state, fun _ _ => Ext.fin 0, c.data⟩ ⟨rpcDiagonal k' x' (state.map fun s j => Ext.scale a (s j)), fun _ _ => Ext.fin 0, c.data⟩ ⟨rfl, by
        cases state with
        | some s => rfl
        | none => funext j; simp only [Option.map_none, rpcDiagonal, h, Ext.scale], by
        funext j t
        simp [Ext.scale]⟩ (by
        rintro i s s' ⟨h1, h2, h3⟩
        have hp : draw i (validResiduals s') = draw i (validResiduals s) := by
          unfold validResiduals
          have e0 : (∀ j, s'.residual j = Ext.fin 0) ↔ ∀ j, s.residual j = Ext.fin 0 := by
            rw [h2]
            refine forall_congr' fun j => ?_
            cases hj : s.residual j <;> simp [Ext.scale, ha.ne', hj]
          have e1 : (∃ j, s'.residual j = Ext.nan) ↔ ∃ j, s.residual j = Ext.nan := by
            rw [h2]
            exact exists_congr fun j => scale_eq_nan _
          simp only [e0, e1, h1]
          split_ifs
          · rfl
          · rw [h2, hdraw]
        have hg : pivotColumn k' x' s'.approx (draw i (validResiduals s)) = fun j => Ext.scale a (pivotColumn k x s.approx (draw i (validResiduals s)) j) := by
          funext j
          unfold pivotColumn
          rw [h3]
          simp only [Ext.mul_scale hs hs, Real.mul_self_sqrt ha.le, sum_scale, h]
          rw [show ∀ v, Ext.fin (a * v) = Ext.scale a (Ext.fin v) from fun _ => rfl, Ext.sub_scale]
        have hcol : ∀ j, pivotColumn k' x' s'.approx (draw i (validResiduals s)) j
              / Ext.sqrt Real.sqrt (pivotColumn k' x' s'.approx (draw i (validResiduals s)) (gatherIdx n (draw i (validResiduals s))))
            = Ext.scale (Real.sqrt a) (pivotColumn k x s.approx (draw i (validResiduals s)) j
              / Ext.sqrt Real.sqrt (pivotColumn k x s.approx (draw i (validResiduals s)) (gatherIdx n (draw i (validResiduals s))))) := by
          intro j
          rw [hg]
          simp only
          rw [Ext.sqrt_scale ha, Ext.div_scale ha hs]
          congr 1
          rw [div_eq_iff hs.ne', Real.mul_self_sqrt ha.le]
        unfold rpcBody
        simp only [hp, hcol]
        simp only [h1, h2, h3, true_and]
        constructor
        · simp only [Ext.mul_scale hs hs, Real.mul_self_sqrt ha.le, Ext.sub_scale, max0_scale ha]
          cases unique
          · rfl
          · rw [if_pos rfl, if_pos rfl, ← setAt_scale]
            simp [Ext.scale]
        · funext j t
          by_cases ht : t = i
          · subst ht; simp
          · simp [Function.update_of_ne ht])
    simp only [rpcLoop, Except.map]
    rw [H.1, H.2.1]

example := C68_rpcholesky (a := 2) (by norm_num) (fun a b : ℝ => a * b + 1) (fun a b : ℝ => 2 * (a * b + 1)) (![1, 2, 5] : Fin 3 → ℝ) (![1, 2, 5] : Fin 3 → ℝ) (fun _ _ => rfl) true (fun i _ => gatherIdx 3 i) (fun _ _ => rfl) 2 none

/-- Halving only evaluates the kernel on its data. -/
theorem ktHalf_pullback {h : ℕ} [NeZero (2 * h)] (k : X → X → ℝ) (c : Ext ℝ) (u : ℕ → ℝ) (x : Fin (2 * h) → X) :
    ktHalf Real.sqrt k c u x = ktHalf Real.sqrt (fun i j => k (x i) (x j)) c u (fun i => i) := rfl

theorem ktHalf_scale {h : ℕ} [NeZero (2 * h)] {b : ℝ} (hb : 0 < b) (k : X → X → ℝ) (k' : X' → X' → ℝ) (c : Ext ℝ) (u : ℕ → ℝ) (x : Fin (2 * h) → X) (x' : Fin (2 * h) → X')
    (hk : ∀ i j, k' (x' i) (x' j) = b * k (x i) (x j)) : ktHalf Real.sqrt k' c u x' = ktHalf Real.sqrt k c u x := by
  rw [ktHalf_pullback k', ktHalf_pullback k, ← C56_half_scale hb (fun i j => k (x i) (x j))]
  simp only [hk]

theorem argminList_scale {a : ℝ} (ha : 0 < a) (l : List ℝ) : argminList (l.map (a * ·)) = argminList l := by
  have key : ∀ l' : List ℝ, (hl : l'.length = l.length) → (∀ i : Fin l.length, l'.get (i.cast hl.symm) = a * l.get i) → argminList l' = argminList l := by
    intro l' hl hget
    have e : (List.finRange l'.length) = (List.finRange l.length).map (Fin.cast hl.symm) := by
      apply List.ext_getElem
      · simp [hl]
      · intro i h1 h2
        simp
    have hle : ∀ i j : Fin l.length, l'.get (i.cast hl.symm) ≤ l'.get (j.cast hl.symm) ↔ l.get i ≤ l.get j := by
      intro i j
      rw [hget, hget, mul_le_mul_iff_right₀ ha]
    have hmap : ((List.finRange l.length).map (Fin.cast hl.symm)).argmin (fun i => l'.get i) = ((List.finRange l.length).argmin (fun i => l.get i)).map (Fin.cast hl.symm) := by
      have hlt : ∀ i j : Fin l.length, l'.get (i.cast hl.symm) < l'.get (j.cast hl.symm) ↔ l.get i < l.get j := fun i j => by rw [← not_le, ← not_le, hle]
      unfold List.argmin
      generalize List.finRange l.length = q
      have : ∀ (q : List (Fin l.length)) (o : Option (Fin l.length)),
          (q.map (Fin.cast hl.symm)).foldl (List.argAux fun b c => l'.get b < l'.get c) (o.map (Fin.cast hl.symm))
            = (q.foldl (List.argAux fun b c => l.get b < l.get c) o).map (Fin.cast hl.symm) := by
        intro q
        induction q with
        | nil => intro o; rfl
        | cons t q ih =>
          intro o
          simp only [List.map_cons, List.foldl_cons]
          rw [← ih]
          congr 1
          cases o with
          | none => rfl
          | some s =>
            simp only [List.argAux, Option.map_some]
            by_cases hc : l.get t < l.get s
            · rw [if_pos hc, if_pos ((hlt t s).2 hc)]
              rfl
            · rw [if_neg hc, if_neg (fun h => hc ((hlt t s).1 h))]
              rfl
      exact this q none
    unfold argminList
    rw [e, hmap]
    cases (List.finRange l.length).argmin (fun i => l.get i) <;> rfl
  refine key _ (by simp) fun i => ?_
  simp

/-- C68: kernel thinning selects the same points, if the kernel is multiplied by one positive number and the square-root kernel by any other. -/
theorem C68_thinning {size : ℕ} [NeZero size] {a b : ℝ} (ha : 0 < a) (hb : 0 < b) (big : ℝ) (k sk : X → X → ℝ) (k' sk' : X' → X' → ℝ) (x : Fin n → X) (w : Fin n → ℝ) (x' : Fin n → X')
    (h : ∀ i j, k' (x' i) (x' j) = a * k (x i) (x j)) (hs : ∀ i j, sk' (x' i) (x' j) = b * sk (x i) (x j)) (c : Ext ℝ) (u : ℕ → ℝ) (choice : Choice n size ℝ)
    (ord : List (Fin (size + (size - size)))) (m : ℕ) :
    ktReduce big k' sk' c u choice ord m ⟨x', w⟩ = ktReduce big k sk c u choice ord m ⟨x, w⟩ := by
  have hrec : ∀ (m : ℕ) (parent : Fin (ktRows size m) → ℤ),
      ktHalfRecursive (size := size) Real.sqrt sk' c u x' m parent = ktHalfRecursive Real.sqrt sk c u x m parent := by
    intro m
    induction m with
    | zero => intro parent; rfl
    | succ m ih =>
      intro parent
      simp only [ktHalfRecursive]
      rw [ktHalf_scale hb sk sk' c u (fun t => x (gatherIdx n (parent t))) (fun t => x' (gatherIdx n (parent t))) fun i j => hs _ _, ih, ih]
  have hpart : ktPartition (size := size) Real.sqrt sk' c u x' m = ktPartition Real.sqrt sk c u x m := by
    cases m with
    | zero => rfl
    | succ m =>
      simp only [ktPartition]
      rw [ktHalf_scale hb sk sk' c u (fun t => x (gatherIdx n ((t : ℕ) : ℤ))) (fun t => x' (gatherIdx n ((t : ℕ) : ℤ))) fun i j => hs _ _, hrec, hrec]
  have hsq := Real.sqrt_pos.2 ha
  have hchoose : ∀ cands : List (Fin size → ℤ), ktChoose big k' ⟨x', w⟩ cands = ktChoose big k ⟨x, w⟩ cands := by
    intro cands
    have hcol : ∀ l : List (Except Err ℝ), collectMmd (l.map fun e => e.map (Real.sqrt a * ·)) = (collectMmd l).map (List.map (Real.sqrt a * ·)) := by
      intro l
      induction l with
      | nil => rfl
      | cons e l ih =>
        cases e with
        | error e => rfl
        | ok v =>
          simp only [List.map_cons, collectMmd, Except.map] at ih ⊢
          rw [ih]
          cases collectMmd l <;> rfl
    unfold ktChoose
    have hmm : (cands.map fun c => mmdCompute big k' (⟨fun t => x' (gatherIdx n (c t)), fun _ => 1⟩ : Data size X' ℝ) ⟨x', w⟩ (.leaf none))
        = (cands.map fun c => mmdCompute big k (⟨fun t => x (gatherIdx n (c t)), fun _ => 1⟩ : Data size X ℝ) ⟨x, w⟩ (.leaf none)).map fun e => e.map (Real.sqrt a * ·) := by
      rw [List.map_map]
      refine List.map_congr_left fun c _ => ?_
      exact C68_mmd ha.le big k k' (fun t => x (gatherIdx n (c t))) (fun _ => 1) x w (fun t => x' (gatherIdx n (c t))) x' (fun i j => h _ _) h (fun i j => h _ _) (fun i j => h _ _) _
    simp only [hmm, hcol]
    cases collectMmd (cands.map fun c => mmdCompute big k (⟨fun t => x (gatherIdx n (c t)), fun _ => 1⟩ : Data size X ℝ) ⟨x, w⟩ (.leaf none)) with
    | error e => rfl
    | ok vals =>
      simp only [Except.map]
      rw [argminList_scale hsq]
  have hrefine : ∀ best : Fin size → ℤ, dropState (herdingRefine big k' none true (.leaf none) size ⟨x', w⟩ ⟨best, fun _ => 1⟩ none ord)
      = dropState (herdingRefine big k none true (.leaf none) size ⟨x, w⟩ ⟨best, fun _ => 1⟩ none ord) := by
    intro best
    have := (C68_herding ha big k k' x w x' h none none (Or.inl ⟨rfl, rfl⟩) true (.leaf none) size ⟨best, fun _ => 1⟩ none ord ord).1
    rw [Option.map_none] at this
    rw [this]
    cases herdingRefine big k none true (.leaf none) size ⟨x, w⟩ ⟨best, fun _ => 1⟩ none ord <;> rfl
  unfold ktReduce
  by_cases hn : size > n
  · rw [if_pos hn, if_pos hn]
  · rw [if_neg hn, if_neg hn]
    simp only [hpart, hchoose, hrefine, randomSample, Coresubset.init, if_neg hn]
    split_ifs <;> rfl

example (u : ℕ → ℝ) (choice : Choice 3 2 ℝ) := C68_thinning (a := 2) (b := 3) (by norm_num) (by norm_num) 1000 (fun a b : ℝ => a * b + 1) (fun a b : ℝ => a * b) (fun a b : ℝ => 2 * (a * b + 1)) (fun a b : ℝ => 3 * (a * b)) (![1, 2, 5] : Fin 3 → ℝ) ![1, 0, 2] (![1, 2, 5] : Fin 3 → ℝ)
  (fun _ _ => rfl) (fun _ _ => rfl) (.fin 1) u choice [0, 1] 1

end

/-! ### Kernels in other units -/

section
variable {d : ℕ}

/-- A map that multiplies all distances by `c`: a change of units, a translation, a rotation, a reflection or a combination of them. -/
def Spec.Similarity (c : ℝ) (f : Vec d → Vec d) : Prop := ∀ a b, ∑ i, (f a i - f b i) ^ 2 = c ^ 2 * ∑ i, (a i - b i) ^ 2

/-- Kernels that are functions of the Euclidean distance with a length among their parameters. -/
def Spec.Isotropic : KExpr d → Prop
  | .const _ => True
  | .exponential _ _ => True
  | .squaredExponential _ _ => True
  | .pcimq _ _ => True
  | .rationalQuadratic _ _ _ => True
  | .matern _ _ _ => True
  | .periodic _ _ _ => True
  | .power k _ => Spec.Isotropic k
  | .add a b => Spec.Isotropic a ∧ Spec.Isotropic b
  | .mul a b => Spec.Isotropic a ∧ Spec.Isotropic b
  | _ => False

/-- The same kernel for data whose lengths are multiplied by `c`.  The `length_scale` of the exponential and of the Laplacian kernel is the square root of a length, and a periodic kernel has a
period instead. -/
noncomputable def Spec.inUnits (c : ℝ) : KExpr d → KExpr d
  | .exponential l s => .exponential (Real.sqrt c * l) s
  | .laplacian l s => .laplacian (Real.sqrt c * l) s
  | .squaredExponential l s => .squaredExponential (c * l) s
  | .pcimq l s => .pcimq (c * l) s
  | .rationalQuadratic l s a => .rationalQuadratic (c * l) s a
  | .matern l s p => .matern (c * l) s p
  | .periodic l s p => .periodic l s (c * p)
  | .power k n => .power (Spec.inUnits c k) n
  | .add a b => .add (Spec.inUnits c a) (Spec.inUnits c b)
  | .mul a b => .mul (Spec.inUnits c a) (Spec.inUnits c b)
  | k => k

theorem Similarity.sqDist {c : ℝ} {f : Vec d → Vec d} (hf : Similarity c f) (a b : Vec d) : Coreax.sqDist (f a) (f b) = c ^ 2 * Coreax.sqDist a b := by
  rw [sqDist_eq, sqDist_eq, hf]

theorem Similarity.nrm {c : ℝ} (hc : 0 < c) {f : Vec d → Vec d} (hf : Similarity c f) (a b : Vec d) : Coreax.nrm (f a) (f b) = c * Coreax.nrm a b := by
  rw [nrm_eq, nrm_eq, Similarity.sqDist hf, Real.sqrt_mul (sq_nonneg c), Real.sqrt_sq hc.le]

theorem mulSem_compute_eq (a b : KExpr d) (x y : Vec d) : (KExpr.mul a b).sem.compute x y = a.sem.compute x y * b.sem.compute x y := by
  by_cases h : a = b
  · subst h
    simp [KExpr.sem, mulSem, sq]
  · simp [KExpr.sem, mulSem, h]

/-- C68: a kernel with its lengths given in the units of the data has the same values in all units, for all data and all compositions of kernels. -/
theorem C68_units {c : ℝ} (hc : 0 < c) {f : Vec d → Vec d} (hf : Similarity c f) (K : KExpr d) (hK : Isotropic K) (a b : Vec d) :
    (inUnits c K).sem.compute (f a) (f b) = K.sem.compute a b := by
  have h1 := Similarity.sqDist hf a b
  have h2 := Similarity.nrm hc hf a b
  have hc' := hc.ne'
  have hsq := Real.sq_sqrt hc.le
  induction K with
  | const v => rfl
  | linear _ _ => exact hK.elim
  | polynomial _ _ _ => exact hK.elim
  | exponential l s =>
    simp only [inUnits, KExpr.sem, exponentialSem, h2]
    rw [mul_pow, hsq, show 2 * (c * l ^ 2) = c * (2 * l ^ 2) by ring, ← mul_neg, mul_div_mul_left _ _ hc']
  | laplacian _ _ => exact hK.elim
  | squaredExponential l s =>
    simp only [inUnits, KExpr.sem, squaredExponentialSem, h1]
    rw [mul_pow, show 2 * (c ^ 2 * l ^ 2) = c ^ 2 * (2 * l ^ 2) by ring, ← mul_neg, mul_div_mul_left _ _ (pow_ne_zero 2 hc')]
  | pcimq l s =>
    simp only [inUnits, KExpr.sem, pcimqSem, h1]
    rw [mul_pow, show 2 * (c ^ 2 * l ^ 2) = c ^ 2 * (2 * l ^ 2) by ring, mul_div_mul_left _ _ (pow_ne_zero 2 hc')]
  | rationalQuadratic l s w =>
    simp only [inUnits, KExpr.sem, rationalQuadraticSem, h1]
    rw [mul_pow, show 2 * w * (c ^ 2 * l ^ 2) = c ^ 2 * (2 * w * l ^ 2) by ring, mul_div_mul_left _ _ (pow_ne_zero 2 hc')]
  | matern l s p =>
    have : ∀ q : ℝ, Real.sqrt q * (c * nrm a b) / (c * l) = Real.sqrt q * nrm a b / l := fun q => by
      rw [mul_left_comm, mul_div_mul_left _ _ hc']
    simp only [inUnits, KExpr.sem, KSem.ofCompute, maternCompute, h2, this]
  | periodic l s p =>
    simp only [inUnits, KExpr.sem, periodicSem, h2]
    rw [mul_left_comm, mul_div_mul_left _ _ hc']
  | poisson _ _ => exact hK.elim
  | power k n ih => simp only [inUnits, KExpr.sem, powerSem, ih hK]
  | add p q ihp ihq => simp only [inUnits, KExpr.sem, addSem, ihp hK.1, ihq hK.2]
  | mul p q ihp ihq => rw [show inUnits c (KExpr.mul p q) = .mul (inUnits c p) (inUnits c q) from rfl, mulSem_compute_eq, mulSem_compute_eq, ihp hK.1, ihq hK.2]
  | stein _ _ _ => exact hK.elim

/-- A quarter turn, a change from metres to centimetres and a translation. -/
example := C68_units (c := 100) (by norm_num) (f := fun a : Vec 2 => ![7 - 100 * a 1, 100 * a 0 - 3]) (fun a b => by simp only [Fin.sum_univ_two, Matrix.cons_val_zero, Matrix.cons_val_one]; ring)
  (.add (.mul (.squaredExponential 2 1) (.periodic 1 1 3)) (.power (.matern 1 1 (.int 2)) (.int 2))) ⟨⟨trivial, trivial⟩, trivial⟩ ![1, 2] ![0, 5]

/-- C68: the checks on construction accept the same kernels in all units. -/
theorem C68_units_check {c : ℝ} (hc : 0 < c) (K : KExpr d) : (inUnits c K).check = K.check := by
  have mul_nonpos_iff_right : ∀ {c l : ℝ}, 0 < c → (c * l ≤ 0 ↔ l ≤ 0) := fun hc => by rw [mul_nonpos_iff_pos_imp_nonpos]; constructor <;> intro h <;> first | exact h.1 hc | exact ⟨fun _ => h, fun _ => hc.le⟩
  have h1 : ∀ l : ℝ, checkPos (c * l) = checkPos l := fun l => by
    unfold checkPos
    simp only [mul_nonpos_iff_right hc]
  have h2 : ∀ l : ℝ, checkPos (Real.sqrt c * l) = checkPos l := fun l => by
    unfold checkPos
    simp only [mul_nonpos_iff_right (Real.sqrt_pos.2 hc)]
  induction K with
  | power k n ih => simp only [inUnits, KExpr.check, ih]
  | add p q ihp ihq => simp only [inUnits, KExpr.check, ihp, ihq]
  | mul p q ihp ihq => simp only [inUnits, KExpr.check, ihp, ihq]
  | _ => simp only [inUnits, KExpr.check, h1, h2]

example := C68_units_check (c := 100) (by norm_num) (.squaredExponential (-2) 1 : KExpr 2)

/-- Kernels that only look at the difference of the two points: all but the linear, the polynomial and the Stein kernels. -/
def Spec.Stationary : KExpr d → Prop
  | .linear _ _ => False
  | .polynomial _ _ _ => False
  | .stein _ _ => False
  | .power k _ => Spec.Stationary k
  | .add a b => Spec.Stationary a ∧ Spec.Stationary b
  | .mul a b => Spec.Stationary a ∧ Spec.Stationary b
  | _ => True

/-- C68: moving all points by the same vector changes no value of a stationary kernel. -/
theorem C68_translation (K : KExpr d) (hK : Stationary K) (t a b : Vec d) : K.sem.compute (a + t) (b + t) = K.sem.compute a b := by
  have h1 : sqDist (a + t) (b + t) = sqDist a b := by simp [sqDist]
  have h2 : nrm (a + t) (b + t) = nrm a b := by rw [nrm_eq, nrm_eq, h1]
  have h3 : nrm1 (a + t) (b + t) = nrm1 a b := by simp [nrm1]
  induction K with
  | linear _ _ => exact hK.elim
  | polynomial _ _ _ => exact hK.elim
  | stein _ _ _ => exact hK.elim
  | power k n ih => simp only [KExpr.sem, powerSem, ih hK]
  | add p q ihp ihq => simp only [KExpr.sem, addSem, ihp hK.1, ihq hK.2]
  | mul p q ihp ihq => rw [mulSem_compute_eq, mulSem_compute_eq, ihp hK.1, ihq hK.2]
  | const v => rfl
  | exponential l s => simp only [KExpr.sem, exponentialSem, h2]
  | laplacian l s => simp only [KExpr.sem, laplacianSem, h3]
  | squaredExponential l s => simp only [KExpr.sem, squaredExponentialSem, h1]
  | pcimq l s => simp only [KExpr.sem, pcimqSem, h1]
  | rationalQuadratic l s w => simp only [KExpr.sem, rationalQuadraticSem, h1]
  | matern l s p => simp only [KExpr.sem, KSem.ofCompute, maternCompute, h2]
  | periodic l s p => simp only [KExpr.sem, periodicSem, h2]
  | poisson r s => simp only [KExpr.sem, poissonSem, h2]

example := C68_translation (.mul (.squaredExponential 2 1) (.laplacian 1 3) : KExpr 2) ⟨trivial, trivial⟩ ![7, -3] ![1, 2] ![0, 5]

/-- C68: the Laplacian kernel measures distances with the sum of the absolute differences, so that it keeps its values under changes of units, though not under rotations. -/
theorem C68_laplacian_units {c : ℝ} (hc : 0 < c) (l s : ℝ) (a b : Vec d) :
    (inUnits c (.laplacian l s)).sem.compute (c • a) (c • b) = (KExpr.laplacian l s : KExpr d).sem.compute a b := by
  have h : nrm1 (c • a) (c • b) = c * nrm1 a b := by
    simp only [nrm1, Pi.smul_apply, smul_eq_mul, ← mul_sub, abs_mul, abs_of_pos hc, Finset.mul_sum]
  simp only [inUnits, KExpr.sem, laplacianSem, h]
  rw [mul_pow, Real.sq_sqrt hc.le, show 2 * (c * l ^ 2) = c * (2 * l ^ 2) by ring, ← mul_neg, mul_div_mul_left _ _ hc.ne']

example := C68_laplacian_units (c := 100) (by norm_num) 2 1 (![1, 2] : Vec 2) ![0, 5]

/-- C68: the exponential and the Laplacian kernel with the length scale treated as a length – multiplied by the factor of the data, as the median heuristic does – change all their values at distinct
points. -/
theorem C68_not_a_length {c l s : ℝ} (hc : 0 < c) (hc1 : c ≠ 1) (hl : 0 < l) (hs : 0 < s) {a b : Vec d} (hab : a ≠ b) :
    (KExpr.exponential (c * l) s : KExpr d).sem.compute (c • a) (c • b) ≠ (KExpr.exponential l s : KExpr d).sem.compute a b ∧
    (KExpr.laplacian (c * l) s : KExpr d).sem.compute (c • a) (c • b) ≠ (KExpr.laplacian l s : KExpr d).sem.compute a b := by
  have key : ∀ r : ℝ, 0 < r → s * Real.exp (-(c * r) / (2 * (c * l) ^ 2)) ≠ s * Real.exp (-r / (2 * l ^ 2)) := by
    intro r hr h
    have h1 := Real.exp_injective (mul_left_cancel₀ hs.ne' h)
    rw [div_eq_div_iff (by positivity) (by positivity)] at h1
    have h2 : c * r * (2 * l ^ 2) * (c - 1) = 0 := by linear_combination h1
    rcases mul_eq_zero.1 h2 with h3 | h3
    · exact absurd h3 (by positivity)
    · exact hc1 (by linarith)
  obtain ⟨i, hi⟩ := Function.ne_iff.1 hab
  have hi' : 0 < |a i - b i| := abs_pos.2 (sub_ne_zero.2 hi)
  constructor
  · have h2 : nrm (c • a) (c • b) = c * nrm a b := by
      rw [nrm_eq, nrm_eq, sqDist_smul, Real.sqrt_mul (sq_nonneg c), Real.sqrt_sq hc.le]
    simp only [KExpr.sem, exponentialSem, h2]
    refine key _ (Real.sqrt_pos.2 (lt_of_lt_of_le (b := (a i - b i) ^ 2) (by positivity) ?_))
    exact Finset.single_le_sum (f := fun i => (a i - b i) ^ 2) (fun _ _ => sq_nonneg _) (Finset.mem_univ i)
  · have h : nrm1 (c • a) (c • b) = c * nrm1 a b := by
      simp only [nrm1, Pi.smul_apply, smul_eq_mul, ← mul_sub, abs_mul, abs_of_pos hc, Finset.mul_sum]
    simp only [KExpr.sem, laplacianSem, h]
    refine key _ (lt_of_lt_of_le hi' ?_)
    exact Finset.single_le_sum (f := fun i => |a i - b i|) (fun _ _ => abs_nonneg _) (Finset.mem_univ i)

example := C68_not_a_length (c := 100) (l := 2) (s := 1) (by norm_num) (by norm_num) (by norm_num) (by norm_num) (a := (![1, 2] : Vec 2)) (b := ![0, 2]) (fun h => by simpa using congrFun h 0)

variable {n : ℕ}

/-- C68: the median heuristic is a length: it is multiplied by the factor of the distances, and unchanged by motions of the data. -/
theorem C68_median {c : ℝ} (hc : 0 < c) {f : Vec d → Vec d} (hf : Similarity c f) (x : Fin n → Vec d) :
    medianHeuristic (fun i => f (x i)) = (medianHeuristic x).map (c * ·) := by
  have h := C43_scale x c
  rw [abs_of_pos hc] at h
  rw [← h]
  unfold medianHeuristic pairDistances
  simp only [Similarity.sqDist hf, sqDist_smul]

example := C68_median (c := 100) (by norm_num) (f := fun a : Vec 2 => ![7 - 100 * a 1, 100 * a 0 - 3]) (fun a b => by simp only [Fin.sum_univ_two, Matrix.cons_val_zero, Matrix.cons_val_one]; ring) ![![0, 0], ![1, 2], ![3, 4]]

variable [NeZero n]

/-- C68: the workflow of the examples – a kernel whose length scale is the median heuristic of some of the rows, herding, and the maximum mean discrepancy of the result – gives the same rows and the same
number for the data in other units, moved, rotated or reflected.  This covers the squared exponential, the inverse multiquadric, the rational quadratic and the Matérn kernels. -/
theorem C68_pipeline {c : ℝ} (hc : 0 < c) {f : Vec d → Vec d} (hf : Similarity c f) {r : ℕ} (rows : Fin r → Fin n) (big : ℝ) (kernel : ℝ → KExpr d)
    (hk : (∃ s, kernel = fun l => .squaredExponential l s) ∨ (∃ s, kernel = fun l => .pcimq l s) ∨ (∃ s w, kernel = fun l => .rationalQuadratic l s w) ∨
      ∃ s p, kernel = fun l => .matern l s p)
    (x : Fin n → Vec d) (w : Fin n → ℝ) (unique : Bool) (bs : PyTree (Option ℤ)) (size : ℕ) (ord : List (Fin (size + (size - size)))) (l : ℝ)
    (hl : medianHeuristic (fun t => x (rows t)) = some l) :
    ∃ l', medianHeuristic (fun t => f (x (rows t))) = some l' ∧ (kernel l').check = (kernel l).check ∧
      herdingReduce big (kernel l').sem.compute none unique bs size ⟨fun i => f (x i), w⟩ none ord = herdingReduce big (kernel l).sem.compute none unique bs size ⟨x, w⟩ none ord ∧
      ∀ {m : ℕ} (y : Fin m → Vec d) (v : Fin m → ℝ),
        mmdCompute big (kernel l').sem.compute ⟨fun i => f (x i), w⟩ ⟨fun i => f (y i), v⟩ bs = mmdCompute big (kernel l).sem.compute ⟨x, w⟩ ⟨y, v⟩ bs := by
  have hu : kernel (c * l) = inUnits c (kernel l) ∧ Isotropic (kernel l) := by
    rcases hk with ⟨s, rfl⟩ | ⟨s, rfl⟩ | ⟨s, w, rfl⟩ | ⟨s, p, rfl⟩ <;> exact ⟨rfl, trivial⟩
  have hv : ∀ a b, (kernel (c * l)).sem.compute (f a) (f b) = 1 * (kernel l).sem.compute a b := fun a b => by
    rw [hu.1, C68_units hc hf _ hu.2, one_mul]
  refine ⟨c * l, ?_, ?_, ?_, fun y v => ?_⟩
  · rw [C68_median hc hf, hl]
    rfl
  · rw [hu.1, C68_units_check hc]
  · have h := (C68_herding (m := size) one_pos big (kernel l).sem.compute (kernel (c * l)).sem.compute x w (fun i => f (x i)) (fun i j => hv _ _) none none (Or.inl ⟨rfl, rfl⟩) unique bs size
      ⟨fun _ => 0, fun _ => 0⟩ none ord ord).2
    rw [Option.map_none] at h
    rw [h]
    cases herdingReduce big (kernel l).sem.compute none unique bs size ⟨x, w⟩ none ord with
    | error e => rfl
    | ok v => simp [Except.map]
  · rw [C68_mmd zero_le_one big (kernel l).sem.compute (kernel (c * l)).sem.compute x w y v (fun i => f (x i)) (fun i => f (y i)) (fun i j => hv _ _) (fun i j => hv _ _) (fun i j => hv _ _)
      (fun i j => hv _ _)]
    cases mmdCompute big (kernel l).sem.compute ⟨x, w⟩ ⟨y, v⟩ bs with
    | error e => rfl
    | ok v => simp [Except.map]

example (l : ℝ) (x : Fin 3 → Vec 2) (hl : medianHeuristic (fun t : Fin 3 => x (id t)) = some l) := C68_pipeline (c := 100) (by norm_num) (f := fun a : Vec 2 => ![7 - 100 * a 1, 100 * a 0 - 3]) (fun a b => by simp only [Fin.sum_univ_two, Matrix.cons_val_zero, Matrix.cons_val_one]; ring)
  id 1000 _ (.inl ⟨1, rfl⟩) x ![1, 0, 2] true (.leaf none) 2 [0, 1] l hl

/-- C68: kernel thinning with the square-root kernel that the library offers, whose values do depend on the units: the rows selected still do not. -/
theorem C68_pipeline_thinning {c : ℝ} (hc : 0 < c) {f : Vec d → Vec d} (hf : Similarity c f) {l s : ℝ} (hl : 0 < l) (hs : 0 < s) (dim : ℕ) {size : ℕ} [NeZero size] (big : ℝ)
    (x : Fin n → Vec d) (w : Fin n → ℝ) (cc : Ext ℝ) (u : ℕ → ℝ) (choice : Choice n size ℝ) (ord : List (Fin (size + (size - size)))) (m : ℕ) :
    ktReduce big (KExpr.squaredExponential (c * l) s : KExpr d).sem.compute (sqrtKernel (c * l) s dim : KExpr d).sem.compute cc u choice ord m ⟨fun i => f (x i), w⟩
      = ktReduce big (KExpr.squaredExponential l s : KExpr d).sem.compute (sqrtKernel l s dim : KExpr d).sem.compute cc u choice ord m ⟨x, w⟩ := by
  have hA : ∀ l : ℝ, 0 < l → 0 < Real.sqrt s * (2 / (Real.pi * l ^ 2)) ^ ((dim : ℝ) / 4) := fun l hl => by positivity
  refine C68_thinning one_pos (div_pos (hA (c * l) (by positivity)) (hA l hl)) big _ _ _ _ x w _ (fun i j => ?_) (fun i j => ?_) cc u choice ord m
  · rw [one_mul]
    exact C68_units hc hf (.squaredExponential l s) trivial _ _
  · have h := C68_units hc hf (.squaredExponential (l / Real.sqrt 2) 1) trivial (x i) (x j)
    simp only [inUnits, KExpr.sem, squaredExponentialSem, one_mul] at h
    simp only [sqrtKernel, KExpr.sem, squaredExponentialSem]
    rw [mul_div_assoc c l, h, ← mul_assoc, div_mul_cancel₀ _ (hA l hl).ne']

example (u : ℕ → ℝ) (choice : Choice 3 2 ℝ) := C68_pipeline_thinning (c := 100) (by norm_num) (f := fun a : Vec 2 => ![7 - 100 * a 1, 100 * a 0 - 3]) (fun a b => by simp only [Fin.sum_univ_two, Matrix.cons_val_zero, Matrix.cons_val_one]; ring)
  (l := 2) (s := 1) (by norm_num) (by norm_num) 2 1000 ![![0, 0], ![1, 2], ![3, 4]] ![1, 0, 2] (.fin 1) u choice [0, 1] 1

end

/-! ### The order of the rows, and repeated rows -/

section
variable {K : Type*} [Field K] [LinearOrder K] [IsStrictOrderedRing K] {X : Type*} [Zero X] {n n' : ℕ} [NeZero n] [NeZero n']

/-- No step of the herding recursion `f` has a second row with the largest score. -/
def Spec.NoTies (k : X → X → K) (x : Fin n → X) (w : Fin n → K) (unique : Bool) {size : ℕ} (f : Fin size → Fin n) : Prop :=
  ∀ i j, 0 < w j → (unique = true → ∀ t, t < i → f t ≠ j) → j ≠ f i →
    Spec.avg w (fun l => k (x l) (x j)) - (∑ t, if t < i then k (x j) (x (f t)) else 0) / ((i : ℕ) + 1 : K)
      < Spec.avg w (fun l => k (x l) (x (f i))) - (∑ t, if t < i then k (x (f i)) (x (f t)) else 0) / ((i : ℕ) + 1 : K)

/-- Averages with repeated rows. -/
theorem avg_repeat (ρ : Fin n' → Fin n) (w : Fin n → K) (w' : Fin n' → K) (hw : ∀ j, w j = ∑ i, if ρ i = j then w' i else 0) (g : Fin n → K) :
    Spec.avg w' (fun i => g (ρ i)) = Spec.avg w g := by
  have h : ∀ g : Fin n → K, ∑ j, w j * g j = ∑ i, w' i * g (ρ i) := by
    intro g
    simp only [hw, Finset.sum_mul]
    rw [Finset.sum_comm]
    refine Finset.sum_congr rfl fun i _ => ?_
    simp [ite_mul]
  have h1 := h fun _ => 1
  simp only [mul_one] at h1
  unfold Spec.avg
  rw [h g, h1]

theorem herding_follow (k : X → X → K) (x : Fin n → X) (w : Fin n → K) (w' : Fin n' → K) (hw0 : ∀ i, 0 ≤ w' i) (ρ : Fin n' → Fin n)
    (hw : ∀ j, w j = ∑ i, if ρ i = j then w' i else 0) (unique : Bool) (hu : unique = true → Function.Injective ρ) {size : ℕ} (f : Fin size → Fin n) (f' : Fin size → Fin n')
    (hf : HerdingReduce k x w unique f) (ht : NoTies k x w unique f) (hf' : HerdingReduce k (fun i => x (ρ i)) w' unique f') (i : Fin size) : ρ (f' i) = f i := by
  have hpos : ∀ i, 0 < w' i → 0 < w (ρ i) := by
    intro i hi
    rw [hw]
    refine lt_of_lt_of_le hi ?_
    have := Finset.single_le_sum (f := fun t => if ρ t = ρ i then w' t else 0) (fun t _ => by split_ifs; exacts [hw0 t, le_refl _]) (Finset.mem_univ i)
    simpa using this
  have hex : ∀ j, 0 < w j → ∃ i, ρ i = j ∧ 0 < w' i := by
    intro j hj
    by_contra hcon
    push Not at hcon
    refine absurd hj (not_lt.2 ?_)
    rw [hw]
    refine Finset.sum_nonpos fun i _ => ?_
    split_ifs with h
    · exact hcon i h
    · exact le_refl _
  have key : ∀ N (i : Fin size), (i : ℕ) < N → ρ (f' i) = f i := by
    intro N
    induction N with
    | zero => intro i hi; omega
    | succ N ih =>
      intro i hi
      have hlt : ∀ t, t < i → ρ (f' t) = f t := fun t ht => ih t (by rw [Fin.lt_def] at ht; omega)
      obtain ⟨hal, hmax, -⟩ := hf' i
      have hsum : ∀ y : X, (∑ t, if t < i then k y (x (ρ (f' t))) else 0) = ∑ t, if t < i then k y (x (f t)) else 0 := by
        intro y
        refine Finset.sum_congr rfl fun t _ => ?_
        split_ifs with h
        · rw [hlt t h]
        · rfl
      simp only [hsum] at hmax
      have havg : ∀ y : X, Spec.avg w' (fun l => k (x (ρ l)) y) = Spec.avg w (fun l => k (x l) y) := fun y => avg_repeat ρ w w' hw (fun l => k (x l) y)
      simp only [havg] at hmax
      by_contra hne
      obtain ⟨a, ha, hwa⟩ := hex (f i) (hf i).1.1
      have h1 := ht i (ρ (f' i)) (hpos _ hal.1) (fun hun t hti he => hal.2 hun t hti (hu hun ((hlt t hti).trans he))) hne
      have h2 := hmax a ⟨hwa, fun hun t hti he => (hf i).1.2 hun t hti (by rw [← hlt t hti, he, ha])⟩
      rw [ha] at h2
      exact absurd h1 (not_lt.2 h2)
  exact key _ i (Nat.lt_succ_self _)

/-- C68: a row that occurs several times counts as one row with the sum of the weights: kernel herding (with `unique=False`) of the data with repeated rows selects the same points, as long as no step
of the herding of the data without repetitions has a tie. -/
theorem C68_repeats (big : K) (k : X → X → K) (hk : ∀ a b, k a b = k b a) (x : Fin n → X) (w : Fin n → K) (w' : Fin n' → K) (hw0 : ∀ i, 0 ≤ w' i) (ρ : Fin n' → Fin n)
    (hw : ∀ j, w j = ∑ i, if ρ i = j then w' i else 0) (bs : PyTree (Option ℤ)) (hbs : ValidBlock bs) (size : ℕ) (hsize : 0 < size) (hpos : Spec.PosCount w size)
    (hpos' : Spec.PosCount w' size) (ord : List (Fin (size + (size - size)))) (hord : ∀ t, t ∈ ord) (f : Fin size → Fin n) (hf : HerdingReduce k x w false f)
    (ht : NoTies k x w false f) :
    ∃ (f' : Fin size → Fin n') (g g' : List K), herdingReduce big k none false bs size ⟨x, w⟩ none ord = .ok (⟨fun t => (f t : ℤ), fun _ => 1⟩, g) ∧
      herdingReduce big k none false bs size ⟨fun i => x (ρ i), w'⟩ none ord = .ok (⟨fun t => (f' t : ℤ), fun _ => 1⟩, g') ∧ ∀ t, ρ (f' t) = f t := by
  have hsum' : 0 < ∑ i, w' i := by
    obtain ⟨i, hi⟩ : ∃ i, 0 < w' i := by
      by_contra hcon
      push Not at hcon
      have : (Finset.univ.filter (fun j => 0 < w' j)).card = 0 := by
        rw [Finset.card_eq_zero, Finset.filter_eq_empty_iff]
        exact fun i _ => not_lt.2 (hcon i)
      unfold Spec.PosCount at hpos'
      omega
    exact lt_of_lt_of_le hi (Finset.single_le_sum (f := w') (fun t _ => hw0 t) (Finset.mem_univ i))
  have hsum : 0 < ∑ j, w j := by
    have : ∑ j, w j = ∑ i, w' i := by
      simp only [hw]
      rw [Finset.sum_comm]
      simp
    rw [this]
    exact hsum'
  obtain ⟨f₁, h1, h2⟩ := C12_reduce_greedy big k hk false bs hbs size hsize ⟨x, w⟩ hsum.ne' none (by simp) ord hord hpos
  obtain ⟨f', h3, h4⟩ := C12_reduce_greedy big k hk false bs hbs size hsize ⟨fun i => x (ρ i), w'⟩ hsum'.ne' none (by simp) ord hord hpos'
  obtain rfl := C12_reduce_determined k x w false f₁ f h2 hf
  exact ⟨f', _, _, h1, h3, fun t => herding_follow k x w w' hw0 ρ hw false (fun h => by simp at h) f₁ f' hf ht h4 t⟩

/-- C68: the order of the rows matters for ties only: kernel herding of the rows in another order selects the same rows in the same order. -/
theorem C68_row_order (big : K) (k : X → X → K) (hk : ∀ a b, k a b = k b a) (x : Fin n → X) (w : Fin n → K) (hw0 : ∀ i, 0 ≤ w i) (π : Equiv.Perm (Fin n)) (unique : Bool)
    (bs : PyTree (Option ℤ)) (hbs : ValidBlock bs) (size : ℕ) (hsize : 0 < size) (hpos : Spec.PosCount w size) (ord : List (Fin (size + (size - size)))) (hord : ∀ t, t ∈ ord)
    (f : Fin size → Fin n) (hf : HerdingReduce k x w unique f) (ht : NoTies k x w unique f) :
    ∃ g g' : List K, herdingReduce big k none unique bs size ⟨x, w⟩ none ord = .ok (⟨fun t => (f t : ℤ), fun _ => 1⟩, g) ∧
      herdingReduce big k none unique bs size ⟨fun i => x (π i), fun i => w (π i)⟩ none ord = .ok (⟨fun t => (π.symm (f t) : ℤ), fun _ => 1⟩, g') := by
  have hw : ∀ j, w j = ∑ i, if π i = j then w (π i) else 0 := by
    intro j
    rw [Equiv.sum_comp π (fun i => if i = j then w i else 0)]
    simp
  have hsum : 0 < ∑ i, w i := by
    obtain ⟨i, hi⟩ : ∃ i, 0 < w i := ⟨f ⟨0, hsize⟩, (hf ⟨0, hsize⟩).1.1⟩
    exact lt_of_lt_of_le hi (Finset.single_le_sum (f := w) (fun t _ => hw0 t) (Finset.mem_univ i))
  have hsum' : 0 < ∑ i, w (π i) := by
    rw [Equiv.sum_comp π w]
    exact hsum
  have hpos' : Spec.PosCount (fun i => w (π i)) size := by
    unfold Spec.PosCount at hpos ⊢
    refine hpos.trans (le_of_eq ?_)
    rw [← Fintype.card_subtype, ← Fintype.card_subtype]
    exact (Fintype.card_congr (π.subtypeEquiv fun _ => Iff.rfl)).symm
  obtain ⟨f₁, h1, h2⟩ := C12_reduce_greedy big k hk unique bs hbs size hsize ⟨x, w⟩ hsum.ne' none (by simp) ord hord hpos
  obtain ⟨f', h3, h4⟩ := C12_reduce_greedy big k hk unique bs hbs size hsize ⟨fun i => x (π i), fun i => w (π i)⟩ hsum'.ne' none (by simp) ord hord hpos'
  obtain rfl := C12_reduce_determined k x w unique f₁ f h2 hf
  have he : ∀ t, π.symm (f₁ t) = f' t := fun t => by
    rw [Equiv.symm_apply_eq]
    exact (herding_follow k x w (fun i => w (π i)) (fun i => hw0 _) π hw unique (fun _ => π.injective) f₁ f' hf ht h4 t).symm
  simp only [he]
  exact ⟨_, _, h1, h3⟩

end

/-- C68: with a tie the order of the rows decides, and not only about equivalent points: the same three numbers in two orders give one point each, at squared maximum mean discrepancy 9 and 1. -/
theorem C68_ties_matter : ∃ (x : Fin 3 → ℚ) (π : Equiv.Perm (Fin 3)),
    (herdingReduce 1000 (fun a b : ℚ => a * b) none true (.leaf none) 1 ⟨x, fun _ => 1⟩ none [0]).toOption.map (fun r => List.ofFn r.1.data) = some [0] ∧
    (herdingReduce 1000 (fun a b : ℚ => a * b) none true (.leaf none) 1 ⟨fun i => x (π i), fun _ => 1⟩ none [0]).toOption.map (fun r => List.ofFn r.1.data) = some [0] ∧
    mmdSq (fun a b : ℚ => a * b) x (fun _ => 1) (fun _ : Fin 1 => x 0) (fun _ => 1) = 9 ∧
    mmdSq (fun a b : ℚ => a * b) x (fun _ => 1) (fun _ : Fin 1 => x (π 0)) (fun _ => 1) = 1 :=
  ⟨![3, -1, -2], Equiv.swap 0 1, by decide +kernel⟩

/-! ### Cases -/

/-- A quarter turn followed by a change from metres to centimetres and a translation. -/
example : Similarity 100 (fun a : Vec 2 => ![7 - 100 * a 1, 100 * a 0 - 3]) := by
  intro a b
  simp only [Fin.sum_univ_two, Matrix.cons_val_zero, Matrix.cons_val_one]
  ring

example : Isotropic (.add (.mul (.squaredExponential 2 1) (.periodic 1 1 3)) (.power (.matern 1 1 (.int 2)) (.int 2)) : KExpr 2) := ⟨⟨trivial, trivial⟩, trivial⟩

/-- Two kernels and two square-root kernels with proportional values. -/
example : (∀ i j : Fin 3, (fun a b : ℚ => 2 * (a * b + 1)) (![1, 2, 5] i) (![1, 2, 5] j) = 2 * (fun a b : ℚ => a * b + 1) (![1, 2, 5] i) (![1, 2, 5] j)) ∧ (0 : ℝ) < 2 :=
  ⟨fun _ _ => rfl, by norm_num⟩

/-- A recursion without ties; the rows in another order and with a repetition. -/
example : HerdingReduce (fun a b : ℚ => a * b + 1) ![0, 1, 3] ![1, 2, 1] false (![2, 0] : Fin 2 → Fin 3) ∧ NoTies (fun a b : ℚ => a * b + 1) ![0, 1, 3] ![1, 2, 1] false (![2, 0] : Fin 2 → Fin 3) ∧
    (∀ j, (![1, 2, 1] : Fin 3 → ℚ) j = ∑ i, if (![1, 0, 2, 1] : Fin 4 → Fin 3) i = j then (![1, 1, 1, 1] : Fin 4 → ℚ) i else 0) ∧ PosCount (![1, 1, 1, 1] : Fin 4 → ℚ) 2 := by
  unfold HerdingReduce NoTies IsFirstMax PosCount
  simp only [Bool.false_eq_true, false_imp_iff, and_true, forall_const]
  refine ⟨by decide +kernel, by decide +kernel, by decide +kernel, by decide +kernel⟩

/-- Three rows, the second of weight two, against four rows of weight one of which two are equal. -/
example : ∃ f' : Fin 2 → Fin 4, ∃ g g', herdingReduce 1000 (fun a b : ℚ => a * b + 1) none false (.leaf none) 2 ⟨![0, 1, 3], ![1, 2, 1]⟩ none [0, 1] =
      .ok (⟨fun t => ((![2, 0] : Fin 2 → Fin 3) t : ℤ), fun _ => 1⟩, g) ∧
    herdingReduce 1000 (fun a b : ℚ => a * b + 1) none false (.leaf none) 2 ⟨fun i => ![0, 1, 3] ((![1, 0, 2, 1] : Fin 4 → Fin 3) i), ![1, 1, 1, 1]⟩ none [0, 1] =
      .ok (⟨fun t => (f' t : ℤ), fun _ => 1⟩, g') ∧ ∀ t, (![1, 0, 2, 1] : Fin 4 → Fin 3) (f' t) = (![2, 0] : Fin 2 → Fin 3) t := by
  refine C68_repeats 1000 _ (fun a b => by ring) ![0, 1, 3] ![1, 2, 1] ![1, 1, 1, 1] (by decide +kernel) ![1, 0, 2, 1] (by decide +kernel) (.leaf none) (.inl rfl) 2 (by norm_num)
    (by unfold PosCount; decide +kernel) (by unfold PosCount; decide +kernel) [0, 1] (by decide) ![2, 0] ?_ ?_
  · unfold HerdingReduce IsFirstMax
    simp only [Bool.false_eq_true, false_imp_iff, and_true]
    decide +kernel
  · unfold NoTies
    simp only [Bool.false_eq_true, false_imp_iff, forall_const]
    decide +kernel

/-- The first two rows exchanged. -/
example : ∃ g g', herdingReduce 1000 (fun a b : ℚ => a * b + 1) none false (.leaf none) 2 ⟨![0, 1, 3], ![1, 2, 1]⟩ none [0, 1] =
      .ok (⟨fun t => ((![2, 0] : Fin 2 → Fin 3) t : ℤ), fun _ => 1⟩, g) ∧
    herdingReduce 1000 (fun a b : ℚ => a * b + 1) none false (.leaf none) 2 ⟨fun i => ![0, 1, 3] (Equiv.swap (0 : Fin 3) 1 i), fun i => ![1, 2, 1] (Equiv.swap (0 : Fin 3) 1 i)⟩ none [0, 1] =
      .ok (⟨fun t => ((Equiv.swap (0 : Fin 3) 1).symm ((![2, 0] : Fin 2 → Fin 3) t) : ℤ), fun _ => 1⟩, g') := by
  refine C68_row_order 1000 _ (fun a b => by ring) ![0, 1, 3] ![1, 2, 1] (by decide +kernel) (Equiv.swap 0 1) false (.leaf none) (.inl rfl) 2 (by norm_num)
    (by unfold PosCount; decide +kernel) [0, 1] (by decide) ![2, 0] ?_ ?_
  · unfold HerdingReduce IsFirstMax
    simp only [Bool.false_eq_true, false_imp_iff, and_true]
    decide +kernel
  · unfold NoTies
    simp only [Bool.false_eq_true, false_imp_iff, forall_const]
    decide +kernel

end Coreax
