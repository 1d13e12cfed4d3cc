import Verif.Model.BlobsRow
import Verif.Props.BenchmarkTables
import Verif.Props.Reweighting
import Verif.Props.SteinStrict

/-!
# C91: What a row of the blobs benchmark says
-/

set_option linter.unusedSectionVars false

namespace Coreax

open Spec SteinStrict

variable {d : ℕ} {Y : Type}

theorem finiteWeights_fin {m : ℕ} (v : Fin m → ℝ) : finiteWeights (fun i => .fin (v i)) = some v := by
  unfold finiteWeights
  have h : ∃ u : Fin m → ℝ, ∀ i, (Ext.fin (v i) : Ext ℝ) = .fin (u i) := ⟨v, fun _ => rfl⟩
  rw [dif_pos h]
  congr 1
  funext i
  exact (Ext.fin.inj (Classical.choose_spec h i)).symm

/-- The row for a coresubset of unweighted data, with everything it consists of. -/
theorem BlobsRow.eval (qp : SimplexQP ℝ) (hqp : QPContract qp) (big : ℝ) (k kp : Vec d → Vec d → ℝ) (hk : IsPSD k) (hkp : IsPSD kp) {n m : ℕ} [NeZero n] (hm : 0 < m) (x : Fin n → Vec d)
    (idx : Fin m → ℤ) (elapsed : ℝ) :
    ∃ v : Fin m → ℝ, mmdWeightsSolve qp big k (⟨Data.ofArray x, none⟩ : DSet n (Vec d) Y ℝ) ⟨⟨fun t => x (gatherIdx n (idx t)), fun _ => 1⟩, none⟩ (1 / 10 ^ 10) (.leaf none) = .ok (fun i => .fin (v i)) ∧
      OnSimplex v ∧ ∃ um wm, um = mmdSq k x (fun _ => 1) (fun t => x (gatherIdx n (idx t))) (fun _ => 1) ∧ wm = mmdSq k x (fun _ => 1) (fun t => x (gatherIdx n (idx t))) v ∧ 0 ≤ wm ∧ wm ≤ um ∧
      computeSolverMetrics (Y := Y) qp big k kp ⟨m, n, ⟨idx, fun _ => 1⟩, ⟨Data.ofArray x, none⟩⟩ elapsed = .ok fun
        | .unweightedMmd => .fin (Real.sqrt um)
        | .unweightedKsd => .fin (ksd kp (fun t => x (gatherIdx n (idx t))) fun _ => 1)
        | .weightedMmd => .fin (Real.sqrt wm)
        | .weightedKsd => .fin (ksd kp (fun t => x (gatherIdx n (idx t))) v)
        | .time => .fin elapsed := by
  have hn : 0 < n := NeZero.pos n
  have hone : ∑ _i : Fin m, (1 : ℝ) ≠ 0 := by simpa using hm.ne'
  have hnone : ∑ _i : Fin n, (1 : ℝ) ≠ 0 := by simpa using hn.ne'
  have hbs : ValidBlock (.leaf none) := Or.inl rfl
  obtain ⟨v, h1, h2, h3⟩ := C64_never_worse (Y := Y) qp hqp big k hk.1 hn hm ⟨Data.ofArray x, none⟩ ⟨⟨fun t => x (gatherIdx n (idx t)), fun _ => 1⟩, none⟩ rfl rfl (1 / 10 ^ 10) (by positivity)
    (fun v => hk.2 m _ v) (.leaf none) hbs
  have hv : ∑ i, v i ≠ 0 := by rw [h2.2]; norm_num
  have w0 := (C07_rkhs_distance big k hk hn hm (Data.ofArray x) (⟨fun t => x (gatherIdx n (idx t)), v⟩ : Data m (Vec d) ℝ) hnone hv (.leaf none) hbs).1
  refine ⟨v, h1, h2, _, _, rfl, rfl, w0, h3, ?_⟩
  have a1 := (C07_compute big k hn hm (Data.ofArray x) (⟨fun t => x (gatherIdx n (idx t)), fun _ => 1⟩ : Data m (Vec d) ℝ) hnone hone (.leaf none) hbs).trans
    (congrArg (fun z => Except.ok (Real.sqrt z)) (max_eq_right (w0.trans h3)))
  have a2 := (C07_compute big k hn hm (Data.ofArray x) (⟨fun t => x (gatherIdx n (idx t)), v⟩ : Data m (Vec d) ℝ) hnone hv (.leaf none) hbs).trans
    (congrArg (fun z => Except.ok (Real.sqrt z)) (max_eq_right w0))
  have b1 := (C35_ksd_norm big kp hkp hm (⟨fun t => x (gatherIdx n (idx t)), fun _ => 1⟩ : Data m (Vec d) ℝ) hone (.leaf none) hbs).1
  have b2 := (C35_ksd_norm big kp hkp hm (⟨fun t => x (gatherIdx n (idx t)), v⟩ : Data m (Vec d) ℝ) hv (.leaf none) hbs).1
  unfold computeSolverMetrics
  have e1 : (Coresubset.points (⟨m, n, ⟨idx, fun _ => 1⟩, ⟨Data.ofArray x, none⟩⟩ : Coresubset (Vec d) Y ℝ)) = ⟨⟨fun t => x (gatherIdx n (idx t)), fun _ => 1⟩, none⟩ := rfl
  have e2 : (Coresubset.points (⟨m, n, ⟨idx, v⟩, ⟨Data.ofArray x, none⟩⟩ : Coresubset (Vec d) Y ℝ)) = ⟨⟨fun t => x (gatherIdx n (idx t)), v⟩, none⟩ := rfl
  simp only [e1, a1, b1, h1, bind, Except.bind, finiteWeights_fin, e2, a2, b2]
  rfl

theorem BlobsRow.floor {X : Type} [Zero X] (big : ℝ) (kp : X → X → ℝ) (hk : IsStrict kp) {n : ℕ} [NeZero n] (x : Fin n → X) :
    ∃ δ : ℝ, 0 < δ ∧ ∀ (m : ℕ) (f : Fin m → Fin n) (w : Fin m → ℝ), ∑ i, w i ≠ 0 → δ ≤ ksd kp (fun t => x (f t)) w := by
  classical
  let S := Finset.univ.image x
  have hS : 0 < S.card := Finset.card_pos.2 ⟨x 0, Finset.mem_image_of_mem _ (Finset.mem_univ _)⟩
  obtain ⟨δ, w, h1, -, -, h4, -⟩ := C90_floor big kp hk hS (fun i => (S.equivFin.symm i : X)) (fun a b h => S.equivFin.symm.injective (Subtype.ext h)) (.leaf none) (Or.inl rfl)
  refine ⟨δ, h1, fun m f v hv => ?_⟩
  have hm : 0 < m := by
    rcases Nat.eq_zero_or_pos m with rfl | h
    · exact absurd (Finset.sum_of_isEmpty _) hv
    · exact h
  obtain ⟨r, h5, h6⟩ := h4 m ⟨fun t => x (f t), v⟩ (fun i => ⟨S.equivFin ⟨x (f i), Finset.mem_image_of_mem _ (Finset.mem_univ _)⟩, by simp⟩) hv
  have h7 := (C35_ksd_norm big kp hk.1 hm (⟨fun t => x (f t), v⟩ : Data m X ℝ) hv (.leaf none) (Or.inl rfl)).1
  rw [h5, Except.ok.injEq] at h7
  exact h6.trans_eq h7

/-- **C91.** Whatever coresubset a solver returns for unweighted data, the row of metrics has finite values, the weighted MMD is at most the unweighted MMD, and both Stein discrepancies are at least a positive
number that depends on the data, the kernel and the score only: the same for all solvers and sizes. -/
theorem C91_row (qp : SimplexQP ℝ) (hqp : QPContract qp) (big l : ℝ) (hl : 0 < l) (hd : 0 < d) (score : Vec d → Vec d) {n : ℕ} [NeZero n] (x : Fin n → Vec d) :
    ∃ δ : ℝ, 0 < δ ∧ ∀ (m : ℕ), 0 < m → ∀ (idx : Fin m → ℤ) (elapsed : ℝ), ∃ um uk wm wk : ℝ,
      computeSolverMetrics (Y := Y) qp big (KExpr.squaredExponential l 1 : KExpr d).sem.compute (KExpr.stein (.squaredExponential l 1) score : KExpr d).sem.compute
        ⟨m, n, ⟨idx, fun _ => 1⟩, ⟨Data.ofArray x, none⟩⟩ elapsed = (.ok fun
          | .unweightedMmd => .fin um
          | .unweightedKsd => .fin uk
          | .weightedMmd => .fin wm
          | .weightedKsd => .fin wk
          | .time => .fin elapsed) ∧ 0 ≤ wm ∧ wm ≤ um ∧ δ ≤ uk ∧ δ ≤ wk := by
  have hc := check_squaredExponential (d := d) hl one_pos
  have hk := C90_strict (.squaredExponential l 1 : KExpr d) hc trivial trivial trivial hd score
  obtain ⟨δ, h1, h2⟩ := BlobsRow.floor big _ hk x
  refine ⟨δ, h1, fun m hm idx elapsed => ?_⟩
  obtain ⟨v, -, h4, um, wm, -, -, h7, h8, h9⟩ := BlobsRow.eval (Y := Y) qp hqp big _ _ (C08_psd (.squaredExponential l 1 : KExpr d) hc trivial) hk.1 hm x idx elapsed
  exact ⟨_, _, _, _, h9, Real.sqrt_nonneg _, Real.sqrt_le_sqrt h8, h2 m (fun t => gatherIdx n (idx t)) _ (by simpa using hm.ne'),
    h2 m (fun t => gatherIdx n (idx t)) _ (by rw [h4.2]; norm_num)⟩

/-- Three points of the plane, an index counted from the end and one that is out of range. -/
example (qp : SimplexQP ℝ) (hqp : QPContract qp) (score : Vec 2 → Vec 2) (x : Fin 3 → Vec 2) : ∃ δ : ℝ, 0 < δ ∧ ∃ um uk wm wk : ℝ,
    computeSolverMetrics (Y := Unit) qp 1000 (KExpr.squaredExponential 2 1 : KExpr 2).sem.compute (KExpr.stein (.squaredExponential 2 1) score : KExpr 2).sem.compute
      ⟨2, 3, ⟨![-1, 7], fun _ => 1⟩, ⟨Data.ofArray x, none⟩⟩ 5 = (.ok fun
        | .unweightedMmd => .fin um
        | .unweightedKsd => .fin uk
        | .weightedMmd => .fin wm
        | .weightedKsd => .fin wk
        | .time => .fin 5) ∧ 0 ≤ wm ∧ wm ≤ um ∧ δ ≤ uk ∧ δ ≤ wk := by
  obtain ⟨δ, h1, h2⟩ := C91_row (Y := Unit) qp hqp 1000 2 (by norm_num) (by norm_num) score x
  exact ⟨δ, h1, h2 2 (by norm_num) _ 5⟩

/-- **C91.** In the table of averages over the seeds: if the rows of all seeds are as described, no solver has a larger weighted than unweighted MMD, for any size. -/
theorem C91_table {S : Type} (names : List String) (hn : names.Nodup) (sizes : List ℕ) (value : S → ℕ → String → BlobMetric → ℝ) (seeds : List S) (hs : seeds ≠ [])
    (h : ∀ s ∈ seeds, ∀ size ∈ sizes, ∀ nm ∈ names, value s size nm .weightedMmd ≤ value s size nm .unweightedMmd ∧ 0 < value s size nm .unweightedKsd ∧ 0 < value s size nm .weightedKsd)
    (size : ℕ) (row : List (String × (BlobMetric → Ext ℝ))) (hrow : (size, row) ∈ finalBlobs (fun s size => names.map fun nm => (nm, fun q => .fin (value s size nm q))) seeds sizes)
    (nm : String) (cell : BlobMetric → Ext ℝ) (hcell : (nm, cell) ∈ row) :
    ∃ um uk wm wk, cell .unweightedMmd = .fin um ∧ cell .unweightedKsd = .fin uk ∧ cell .weightedMmd = .fin wm ∧ cell .weightedKsd = .fin wk ∧ wm ≤ um ∧ 0 < uk ∧ 0 < wk := by
  rw [C60_averages names hn sizes value seeds hs] at hrow
  obtain ⟨size', hsize, he⟩ := List.mem_map.1 hrow
  obtain ⟨rfl, rfl⟩ := Prod.mk.inj he
  obtain ⟨nm', hnm, he⟩ := List.mem_map.1 hcell
  obtain ⟨rfl, rfl⟩ := Prod.mk.inj he
  have hlen : (0 : ℝ) < seeds.length := by exact_mod_cast List.length_pos_of_ne_nil hs
  have hpos : ∀ q, (∀ s ∈ seeds, 0 < value s size' nm' q) → 0 < (seeds.map fun s => value s size' nm' q).sum / seeds.length := fun q hq =>
    div_pos (List.sum_pos _ (fun y hy => by obtain ⟨s, hs, rfl⟩ := List.mem_map.1 hy; exact hq s hs) (by simpa using hs)) hlen
  refine ⟨_, _, _, _, rfl, rfl, rfl, rfl, ?_, hpos _ fun s hs => (h s hs _ hsize _ hnm).2.1, hpos _ fun s hs => (h s hs _ hsize _ hnm).2.2⟩
  exact div_le_div_of_nonneg_right (List.sum_le_sum fun s hs => (h s hs _ hsize _ hnm).1) hlen.le

/-- Two seeds, one size, one solver. -/
example : ∃ um uk wm wk : ℝ, ((Ext.fin ((3 + 5) / 2) : Ext ℝ) = .fin um ∧ wm ≤ um ∧ 0 < uk ∧ 0 < wk) := by
  obtain ⟨um, uk, wm, wk, h1, -, -, -, h5, h6, h7⟩ := C91_table ["RandomSample"] (by simp) [25] (fun (s : Fin 2) _ _ q => match q with
    | .unweightedMmd => if s = 0 then 3 else 5
    | .weightedMmd => 2
    | _ => 1) [0, 1] (by simp) (fun s _ _ _ _ _ => by dsimp only; split_ifs <;> norm_num) 25 _ (by rw [C60_averages _ (by simp) _ _ _ (by simp)]; exact List.mem_singleton_self _) "RandomSample" _
    (List.mem_singleton_self _)
  refine ⟨um, uk, wm, wk, ?_, h5, h6, h7⟩
  rw [← h1]
  norm_num

theorem BlobsRow.optimum {s ε p t : ℝ} (hs : 0 < s) (he : 0 < ε) (ht : t = s / (6 * (s + ε))) (h : -(2 * s * p / 3) + 2 * (s + ε) * p ^ 2 ≤ -(2 * s * t / 3) + 2 * (s + ε) * t ^ 2) :
    p ≠ 0 ∧ -(2 * s * p / 3) + 2 * s * p ^ 2 < 0 := by
  have ht0 : 0 < t := by rw [ht]; positivity
  have e : (s + ε) * t = s / 6 := by rw [ht]; field_simp
  have e2 : 2 * (s + ε) * t ^ 2 = s * t / 3 := by linear_combination 2 * t * e
  have h1 : -(2 * s * p / 3) + 2 * (s + ε) * p ^ 2 < 0 := by nlinarith [mul_pos hs ht0]
  refine ⟨fun hp => by rw [hp] at h1; norm_num at h1, ?_⟩
  nlinarith [mul_nonneg he.le (sq_nonneg p)]

/-- **C91, boundary.** Weights that lower the MMD can raise the Stein discrepancy: two rows at `a`, one at `b`, the coreset `a, b`, a flat density (score zero), every length scale, every dimension and every exact
solver of the quadratic programme. -/
theorem C91_ksd_rises (qp : SimplexQP ℝ) (hqp : QPContract qp) (big l : ℝ) (hl : 0 < l) (hd : 0 < d) (a b : Vec d) (hab : a ≠ b) (elapsed : ℝ) :
    ∃ um uk wm wk : ℝ, computeSolverMetrics (Y := Y) qp big (KExpr.squaredExponential l 1 : KExpr d).sem.compute (KExpr.stein (.squaredExponential l 1) fun _ => 0 : KExpr d).sem.compute
        ⟨2, 3, ⟨![0, 2], fun _ => 1⟩, ⟨Data.ofArray ![a, a, b], none⟩⟩ elapsed = (.ok fun
          | .unweightedMmd => .fin um
          | .unweightedKsd => .fin uk
          | .weightedMmd => .fin wm
          | .weightedKsd => .fin wk
          | .time => .fin elapsed) ∧ wm < um ∧ uk < wk := by
  have hc := check_squaredExponential (d := d) hl one_pos
  have hk := C08_psd (.squaredExponential l 1 : KExpr d) hc trivial
  have hkp := C35_psd (.squaredExponential l 1 : KExpr d) (fun _ => 0) hc trivial trivial
  obtain ⟨x, hx⟩ : ∃ x : Fin 3 → Vec d, x = ![a, a, b] := ⟨_, rfl⟩
  obtain ⟨idx, hi⟩ : ∃ idx : Fin 2 → ℤ, idx = ![0, 2] := ⟨_, rfl⟩
  obtain ⟨v, h1, h2, um, wm, h3, h4, h5, h6, h7⟩ := BlobsRow.eval (Y := Y) qp hqp big _ _ hk hkp two_pos x idx elapsed
  have hpts : (fun t => x (gatherIdx 3 (idx t))) = ![a, b] := by
    funext t
    rw [hx, hi]
    fin_cases t <;> rfl
  rw [hpts] at h1 h3 h4 h7
  rw [hx] at h1 h3 h4 h7
  rw [hi] at h7
  refine ⟨_, _, _, _, h7, ?_⟩
  obtain ⟨v', h8, -, h9⟩ := C29_optimal (Y := Y) qp hqp big _ hk.1 (n := 3) (by norm_num) two_pos ⟨Data.ofArray ![a, a, b], none⟩ ⟨⟨![a, b], fun _ => 1⟩, none⟩ rfl rfl (1 / 10 ^ 10) (by positivity)
    (fun v => hk.2 2 _ v) (.leaf none) (Or.inl rfl)
  rw [h1, Except.ok.injEq] at h8
  have hvv : v' = v := by funext i; exact (Ext.fin.inj (congrFun h8 i)).symm
  rw [hvv] at h9
  clear h1 h7 h8 hvv hpts hx hi
  -- the values of the two kernels
  have hq : 0 < sqDist a b := lt_of_le_of_ne (sqDist_nonneg a b) fun e => hab (by
    funext i
    have := (Finset.sum_eq_zero_iff_of_nonneg fun i _ => mul_self_nonneg (a i - b i)).1 e.symm i (Finset.mem_univ i)
    exact sub_eq_zero.1 (mul_self_eq_zero.1 this))
  have hz : ∀ z : Vec d, sqDist z z = 0 := fun z => by simp [sqDist]
  obtain ⟨κ, hκ⟩ : ∃ κ, κ = (KExpr.squaredExponential l 1 : KExpr d).sem.compute a b := ⟨_, rfl⟩
  have kzz : ∀ z, (KExpr.squaredExponential l 1 : KExpr d).sem.compute z z = 1 := fun z => by simp [KExpr.sem, squaredExponentialSem, hz]
  have kba : (KExpr.squaredExponential l 1 : KExpr d).sem.compute b a = κ := by rw [hk.1 b a, hκ]
  have hκ1 : κ < 1 := by
    rw [hκ]
    simp only [KExpr.sem, squaredExponentialSem, one_mul]
    rw [Real.exp_lt_one_iff]
    exact div_neg_of_neg_of_pos (neg_neg_of_pos hq) (by positivity)
  have hκ0 : 0 < κ := by rw [hκ]; simp only [KExpr.sem, squaredExponentialSem, one_mul]; positivity
  obtain ⟨c, hcc⟩ : ∃ c, c = (KExpr.stein (.squaredExponential l 1) fun _ => 0 : KExpr d).sem.compute a b := ⟨_, rfl⟩
  obtain ⟨D, hD⟩ : ∃ D : ℝ, D = 1 / l ^ 2 * d := ⟨_, rfl⟩
  have pzz : ∀ z, (KExpr.stein (.squaredExponential l 1) fun _ => 0 : KExpr d).sem.compute z z = D := fun z => by
    simp [KExpr.sem, KSem.ofCompute, steinCompute, squaredExponentialSem, hz, vdot, hD]
  have pba : (KExpr.stein (.squaredExponential l 1) fun _ => 0 : KExpr d).sem.compute b a = c := by rw [hkp.1 b a, hcc]
  have hcD : c < D := by
    have : c = 1 / l ^ 2 * (κ * (d - 1 / l ^ 2 * sqDist a b)) := by
      rw [hcc, hκ]
      simp [KExpr.sem, KSem.ofCompute, steinCompute, squaredExponentialSem, vdot]
      ring
    rw [this, hD]
    refine mul_lt_mul_of_pos_left ?_ (by positivity)
    have h1 : 0 < 1 / l ^ 2 * sqDist a b := by positivity
    have h2 : (0 : ℝ) < d := by exact_mod_cast hd
    nlinarith
  have hcD0 : 0 ≤ (D + c) / 2 := by
    have := hkp.2 2 ![a, b] ![1, 1]
    simp only [Fin.sum_univ_two, Matrix.cons_val_zero, Matrix.cons_val_one, pzz, ← hcc, pba] at this
    linarith
  -- the weights
  obtain ⟨p, hp⟩ : ∃ p, p = v 0 - 1 / 2 := ⟨_, rfl⟩
  have hv0 : v 0 = 1 / 2 + p := by rw [hp]; ring
  have hv1 : v 1 = 1 / 2 - p := by
    have := h2.2
    rw [Fin.sum_univ_two] at this
    linarith
  obtain ⟨ε, hε⟩ : ∃ ε : ℝ, ε = 1 / 10 ^ 10 := ⟨_, rfl⟩
  have hε0 : 0 < ε := by rw [hε]; positivity
  have hs : 0 < 1 - κ := by linarith
  obtain ⟨t, ht⟩ : ∃ t, t = (1 - κ) / (6 * (1 - κ + ε)) := ⟨_, rfl⟩
  have ht0 : 0 < t := by rw [ht]; positivity
  have ht1 : t ≤ 1 / 6 := by
    rw [ht, div_le_div_iff₀ (by positivity) (by norm_num)]
    linarith
  have h10 := h9 ![1 / 2 + t, 1 / 2 - t] ⟨fun i => by fin_cases i <;> simp <;> linarith, by simp [Fin.sum_univ_two]; norm_num⟩
  rw [← hε] at h10
  simp only [distSq, Fin.sum_univ_two, Fin.sum_univ_three, Data.ofArray, Matrix.cons_val_zero, Matrix.cons_val_one, Matrix.cons_val, kzz, kba, ← hκ, hv0, hv1] at h10
  obtain ⟨hp0, hlt⟩ := BlobsRow.optimum hs hε0 ht (p := p) (by push_cast at h10; nlinarith)
  have hum : um = wm + (2 * (1 - κ) * p / 3 - 2 * (1 - κ) * p ^ 2) := by
    rw [h3, h4]
    simp only [mmdSq, avg, Fin.sum_univ_two, Fin.sum_univ_three, Matrix.cons_val_zero, Matrix.cons_val_one, Matrix.cons_val, kzz, kba, ← hκ, hv0, hv1]
    norm_num
    ring
  refine ⟨Real.sqrt_lt_sqrt h5 (by linarith), ?_⟩
  have e1 : (avg (fun _ : Fin 2 => (1 : ℝ)) fun i => avg (fun _ => (1 : ℝ)) fun j => (KExpr.stein (.squaredExponential l 1) fun _ => 0 : KExpr d).sem.compute ((![a, b] : Fin 2 → Vec d) i) ((![a, b] : Fin 2 → Vec d) j))
      = (D + c) / 2 := by
    simp only [avg, Fin.sum_univ_two, Matrix.cons_val_zero, Matrix.cons_val_one, pzz, pba, ← hcc]
    ring
  have e2 : (avg v fun i => avg v fun j => (KExpr.stein (.squaredExponential l 1) fun _ => 0 : KExpr d).sem.compute ((![a, b] : Fin 2 → Vec d) i) ((![a, b] : Fin 2 → Vec d) j))
      = (D + c) / 2 + 2 * p ^ 2 * (D - c) := by
    simp only [avg, Fin.sum_univ_two, Matrix.cons_val_zero, Matrix.cons_val_one, pzz, pba, ← hcc, hv0, hv1]
    ring
  have : 0 < p ^ 2 := by positivity
  have e3 : (D + c) / 2 < (D + c) / 2 + 2 * p ^ 2 * (D - c) := lt_add_of_pos_right _ (mul_pos (by linarith) (by linarith))
  exact (congrArg Real.sqrt e1).trans_lt ((Real.sqrt_lt_sqrt hcD0 e3).trans_eq (congrArg Real.sqrt e2).symm)

example (qp : SimplexQP ℝ) (hqp : QPContract qp) :=
  C91_ksd_rises (d := 1) (Y := Unit) qp hqp 1000 3 (by norm_num) one_pos (fun _ => 0) (fun _ => 1) (fun h => by have := congrFun h 0; norm_num at this) 5

end Coreax
