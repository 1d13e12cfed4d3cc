import Verif.Props.Thinning

/-!
# Kernel thinning: the whole reduction (C19, C20) and Compress++ (C21)
-/

set_option linter.unusedSectionVars false

namespace Coreax

open Spec Greedy

universe w

section Partition
variable {X K : Type*} [Field K] [LinearOrder K] [IsStrictOrderedRing K] {n : ℕ} [NeZero n] {size : ℕ} [NeZero size]

/-- The recursive halving gives `2**m` candidates of `size` indices that partition the first `size * 2**m` rows: each of
these rows occurs exactly once in exactly one candidate. -/
theorem C19_partition (root : K → K) (k : X → X → K) (c : Ext K) (u : ℕ → K) (d : Fin n → X) (m : ℕ) :
    (ktPartition (size := size) root k c u d m).length = 2 ^ m ∧
      ((ktPartition (size := size) root k c u d m).flatMap List.ofFn).Perm
        ((List.range (size * 2 ^ m)).map (fun a : ℕ => (a : ℤ))) := by
  refine ⟨(ktPartition_perm root k c u d m).1, ?_⟩
  rw [← ofFn_range, ← ktRows_eq]
  exact (ktPartition_perm root k c u d m).2

/-- Each candidate consists of distinct valid rows. -/
theorem C19_candidates (root : K → K) (k : X → X → K) (c : Ext K) (u : ℕ → K) (d : Fin n → X) (m : ℕ)
    (hm : size * 2 ^ m ≤ n) (cand : Fin size → ℤ) (hc : cand ∈ ktPartition (size := size) root k c u d m) :
    ∃ f : Fin size → Fin n, Function.Injective f ∧ cand = fun t => ((f t : ℕ) : ℤ) := by
  obtain ⟨-, hp⟩ := C19_partition (size := size) root k c u d m
  have hnd : ((ktPartition (size := size) root k c u d m).flatMap List.ofFn).Nodup := by
    rw [hp.nodup_iff]
    exact List.Nodup.map (fun a b hab => by exact_mod_cast hab) List.nodup_range
  have hinj : Function.Injective cand := List.nodup_ofFn.1 ((List.nodup_flatMap.1 hnd).1 cand hc)
  have hr : ∀ t, ∃ j : Fin n, cand t = ((j : ℕ) : ℤ) := by
    intro t
    have hmem : cand t ∈ (ktPartition (size := size) root k c u d m).flatMap List.ofFn :=
      List.mem_flatMap.2 ⟨cand, hc, List.mem_ofFn.2 ⟨t, rfl⟩⟩
    rw [hp.mem_iff] at hmem
    obtain ⟨a, ha, hat⟩ := List.mem_map.1 hmem
    exact ⟨⟨a, (List.mem_range.1 ha).trans_le hm⟩, hat.symm⟩
  choose f hf using hr
  exact ⟨f, fun a b hab => hinj (by rw [hf, hf, hab]), funext hf⟩

/-- The number of halvings computed by `reduce` (with the exact logarithm) is the largest one that fits. -/
theorem C19_depth (hs : size ≤ n) :
    size * 2 ^ Nat.log 2 (n / size) ≤ n ∧ n < size * 2 ^ (Nat.log 2 (n / size) + 1) := by
  have hpos : 0 < size := NeZero.pos size
  have hq : n / size ≠ 0 := (Nat.div_pos hs hpos).ne'
  refine ⟨?_, ?_⟩
  · calc size * 2 ^ Nat.log 2 (n / size) ≤ size * (n / size) := Nat.mul_le_mul_left _ (Nat.pow_log_le_self 2 hq)
      _ ≤ n := Nat.mul_div_le n size
  · have := Nat.lt_pow_succ_log_self (b := 2) (by norm_num) (n / size)
    have h2 := (Nat.div_lt_iff_lt_mul hpos).1 this
    rwa [mul_comm] at h2

end Partition

section Choose

theorem argminList_spec {K : Type*} [LinearOrder K] (l : List K) (hl : l ≠ []) :
    ∃ h : argminList l < l.length, ∀ (i : ℕ) (hi : i < l.length), l[argminList l] ≤ l[i] := by
  unfold argminList
  cases hm : (List.finRange l.length).argmin (fun i => l.get i) with
  | none =>
    rw [List.argmin_eq_none] at hm
    have : l.length = 0 := by simpa using congrArg List.length hm
    exact absurd (List.length_eq_zero_iff.1 this) hl
  | some i =>
    refine ⟨i.2, fun j hj => ?_⟩
    exact List.le_of_mem_argmin (f := fun i : Fin l.length => l.get i) (List.mem_finRange ⟨j, hj⟩) hm

theorem collectMmd_ok {α β : Type*} (f : β → α) : ∀ l : List β, collectMmd (l.map fun b => Except.ok (f b)) = .ok (l.map f)
  | [] => rfl
  | b :: l => by simp [collectMmd, collectMmd_ok f l]

variable {X : Type w} [Zero X] {n : ℕ} [NeZero n] {size : ℕ} [NeZero size]

theorem validBlock_none : ValidBlock (.leaf none) := Or.inl rfl

theorem ones_sum_ne : ∑ _t : Fin size, (1 : ℝ) ≠ 0 := by
  have : (size : ℝ) ≠ 0 := by exact_mod_cast NeZero.ne size
  simpa using this

/-- `kt_choose` returns a candidate whose MMD to the dataset is least among all candidates. -/
theorem C20_choose (big : ℝ) (k : X → X → ℝ) (points : Data n X ℝ) (hw : ∑ i, points.weights i ≠ 0)
    (cands : List (Fin size → ℤ)) (hne : cands ≠ []) :
    ∃ best ∈ cands, ktChoose big k points cands = .ok best ∧ ∀ cand ∈ cands,
      max 0 (mmdSq k (fun t => points.data (gatherIdx n (best t))) (fun _ => 1) points.data points.weights)
        ≤ max 0 (mmdSq k (fun t => points.data (gatherIdx n (cand t))) (fun _ => 1) points.data points.weights) := by
  set v := fun cand : Fin size → ℤ => Real.sqrt (max 0 (mmdSq k (fun t => points.data (gatherIdx n (cand t))) (fun _ => 1)
    points.data points.weights)) with hv
  have hmmd : ∀ cand : Fin size → ℤ, mmdCompute big k (⟨fun t => points.data (gatherIdx n (cand t)), fun _ => 1⟩ : Data size X ℝ)
      points (.leaf none) = .ok (v cand) := by
    intro cand
    exact C07_compute big k (NeZero.pos size) (NeZero.pos n) _ points ones_sum_ne hw _ validBlock_none
  obtain ⟨hlt, hmin⟩ := argminList_spec (cands.map v) (by simpa using hne)
  have hlt' : argminList (cands.map v) < cands.length := by simpa using hlt
  refine ⟨cands[argminList (cands.map v)], List.getElem_mem _, ?_, ?_⟩
  · unfold ktChoose
    simp only [hmmd, collectMmd_ok]
    simp [List.getD, hlt']
  · intro cand hc
    obtain ⟨i, hi, rfl⟩ := List.getElem_of_mem hc
    have := hmin i (by simpa using hi)
    simp only [List.getElem_map] at this
    simp only [hv] at this
    exact (Real.sqrt_le_sqrt_iff (le_max_left _ _)).1 this

/-- The candidates of `KernelThinning.reduce`: the partition and the random baseline. -/
noncomputable def ktCandidates (sk : X → X → ℝ) (c : Ext ℝ) (u : ℕ → ℝ) (choice : Choice n size ℝ) (m : ℕ) (dataset : Data n X ℝ) :
    List (Fin size → ℤ) :=
  ktPartition (size := size) Real.sqrt sk c u dataset.data m ++ [choice none false]

/-- All candidates consist of distinct valid rows. -/
theorem ktCandidates_valid (sk : X → X → ℝ) (c : Ext ℝ) (u : ℕ → ℝ) (choice : Choice n size ℝ) (hc : ChoiceContract choice)
    (m : ℕ) (hm : size * 2 ^ m ≤ n) (dataset : Data n X ℝ) (cand : Fin size → ℤ)
    (hcand : cand ∈ ktCandidates sk c u choice m dataset) :
    ∃ f : Fin size → Fin n, Function.Injective f ∧ cand = fun t => ((f t : ℕ) : ℤ) := by
  rcases List.mem_append.1 hcand with hh | hh
  · exact C19_candidates Real.sqrt sk c u dataset.data m hm cand hh
  · rw [List.mem_singleton.1 hh]
    have hs : size ≤ n := le_trans (Nat.le_mul_of_pos_right _ (by positivity)) hm
    have hf : choiceFails n size false = false := by
      have := NeZero.pos n
      simp [choiceFails]; omega
    choose f hf' using hc.range none false hf
    exact ⟨f, fun a b hab => hc.distinct none hf (by rw [hf', hf', hab]), funext hf'⟩

/-- The structure of a successful reduction: the best candidate is refined by herding. -/
theorem ktReduce_run (big : ℝ) (k sk : X → X → ℝ) (c : Ext ℝ) (u : ℕ → ℝ) (choice : Choice n size ℝ)
    (hc : ChoiceContract choice) (ord : List (Fin (size + (size - size)))) (m : ℕ) (hm : size * 2 ^ m ≤ n)
    (dataset : Data n X ℝ) (hw : ∑ i, dataset.weights i ≠ 0) :
    ∃ best : Fin size → Fin n, Function.Injective best ∧
      (fun t => ((best t : ℕ) : ℤ)) ∈ ktCandidates sk c u choice m dataset ∧
      (∀ cand ∈ ktCandidates sk c u choice m dataset,
        max 0 (mmdSq k (fun t => dataset.data (best t)) (fun _ => 1) dataset.data dataset.weights)
          ≤ max 0 (mmdSq k (fun t => dataset.data (gatherIdx n (cand t))) (fun _ => 1) dataset.data dataset.weights)) ∧
      ktReduce big k sk c u choice ord m dataset =
        dropState (herdingRefine big k none true (.leaf none) size dataset ⟨fun t => ((best t : ℕ) : ℤ), fun _ => 1⟩
          none ord) := by
  have hs : size ≤ n := le_trans (Nat.le_mul_of_pos_right _ (by positivity)) hm
  obtain ⟨b, hbm, hb, hbest⟩ := C20_choose big k dataset hw (ktCandidates sk c u choice m dataset)
    (by simp [ktCandidates])
  obtain ⟨f, hinj, hf⟩ := ktCandidates_valid sk c u choice hc m hm dataset b hbm
  refine ⟨f, hinj, hf ▸ hbm, ?_, ?_⟩
  · intro cand hcand
    have := hbest cand hcand
    rw [hf] at this
    simpa using this
  · unfold ktReduce
    rw [if_neg (by omega)]
    have hrs : randomSample false true ⟨n, ⟨dataset, (none : Option (Fin n → Unit))⟩⟩ choice
        = .ok ⟨size, n, ⟨choice none false, fun _ => 1⟩, ⟨dataset, none⟩⟩ := by
      unfold randomSample
      have hcf : choiceFails n size false = false := by
        have := NeZero.pos n
        simp [choiceFails]; omega
      simp [hcf, Coresubset.init, hs]
    rw [hrs]
    simp only
    rw [show (ktPartition (size := size) Real.sqrt sk c u dataset.data m ++
        [fun t : Fin size => if h : (t : ℕ) < size then choice none false ⟨t, h⟩ else 0])
        = ktCandidates sk c u choice m dataset by simp [ktCandidates], hb, hf]

/-- Kernel thinning returns exactly `size` distinct valid rows with unit weights (positive data weights). -/
theorem C20_reduce_valid (big : ℝ) (k sk : X → X → ℝ) (c : Ext ℝ) (u : ℕ → ℝ) (choice : Choice n size ℝ)
    (hc : ChoiceContract choice) (ord : List (Fin (size + (size - size)))) (hord : ∀ t, t ∈ ord) (m : ℕ)
    (hm : size * 2 ^ m ≤ n) (dataset : Data n X ℝ) (hw : ∀ i, 0 < dataset.weights i) :
    ∃ f : Fin size → Fin n, Function.Injective f ∧
      ktReduce big k sk c u choice ord m dataset = .ok ⟨fun t => ((f t : ℕ) : ℤ), fun _ => 1⟩ := by
  have hs : size ≤ n := le_trans (Nat.le_mul_of_pos_right _ (by positivity)) hm
  have hsum : ∑ i, dataset.weights i ≠ 0 := (Finset.sum_pos (fun i _ => hw i) ⟨⟨0, NeZero.pos n⟩, Finset.mem_univ _⟩).ne'
  obtain ⟨best, hinj, -, -, hrun⟩ := ktReduce_run big k sk c u choice hc ord m hm dataset hsum
  have hpc : PosCount dataset.weights (max size size) := by
    unfold PosCount
    rw [Finset.filter_true_of_mem (fun j _ => hw j)]
    simpa using hs
  obtain ⟨f, st, hf, -, hfi⟩ := C11_refine_valid big k none true (.leaf none) validBlock_none size (NeZero.pos size)
    dataset (fun d hd => by cases hd) ⟨fun t => ((best t : ℕ) : ℤ), fun _ => 1⟩
    (fun t => ⟨by simp, by simp⟩) none ord hord hpc
  refine ⟨f, hfi rfl, ?_⟩
  rw [hrun, hf]; rfl

/-- For a kernel with constant diagonal, the result of kernel thinning is at least as good as each of its candidates: no
half and no random baseline has a smaller MMD to the dataset. -/
theorem C20_reduce_best (big : ℝ) (k sk : X → X → ℝ) (hk : ∀ a b, k a b = k b a) (c : Ext ℝ) (u : ℕ → ℝ)
    (choice : Choice n size ℝ) (hc : ChoiceContract choice) (ord : List (Fin (size + (size - size)))) (hord : ∀ t, t ∈ ord)
    (m : ℕ) (hm : size * 2 ^ m ≤ n) (dataset : Data n X ℝ) (hw : ∀ i, 0 < dataset.weights i)
    (hdiag : ∀ i j, k (dataset.data i) (dataset.data i) = k (dataset.data j) (dataset.data j)) :
    ∃ f : Fin size → Fin n, Function.Injective f ∧
      ktReduce big k sk c u choice ord m dataset = .ok ⟨fun t => ((f t : ℕ) : ℤ), fun _ => 1⟩ ∧
      (∀ cand ∈ ktPartition (size := size) Real.sqrt sk c u dataset.data m,
        max 0 (mmdSq k (fun t => dataset.data (f t)) (fun _ => 1) dataset.data dataset.weights)
          ≤ max 0 (mmdSq k (fun t => dataset.data (gatherIdx n (cand t))) (fun _ => 1) dataset.data dataset.weights)) ∧
      max 0 (mmdSq k (fun t => dataset.data (f t)) (fun _ => 1) dataset.data dataset.weights)
          ≤ max 0 (mmdSq k (fun t => dataset.data (gatherIdx n (choice none false t))) (fun _ => 1)
            dataset.data dataset.weights) := by
  have hs : size ≤ n := le_trans (Nat.le_mul_of_pos_right _ (by positivity)) hm
  have hsum : ∑ i, dataset.weights i ≠ 0 := (Finset.sum_pos (fun i _ => hw i) ⟨⟨0, NeZero.pos n⟩, Finset.mem_univ _⟩).ne'
  obtain ⟨best, hinj, -, hbest, hrun⟩ := ktReduce_run big k sk c u choice hc ord m hm dataset hsum
  have hpc : PosCount dataset.weights size := by
    unfold PosCount
    rw [Finset.filter_true_of_mem (fun j _ => hw j)]
    simpa using hs
  obtain ⟨f, st, hf, -, -, hfi, hdesc⟩ := C41_herding_refine_descent big k hk true (.leaf none) validBlock_none
    (NeZero.pos size) dataset hdiag hsum best 1 one_pos (fun t => hw _) (fun _ => hinj) none (fun l hl => by cases hl) ord
    hord hpc
  have hle : max 0 (mmdSq k (fun t => dataset.data (f t)) (fun _ => 1) dataset.data dataset.weights)
      ≤ max 0 (mmdSq k (fun t => dataset.data (best t)) (fun _ => 1) dataset.data dataset.weights) := by
    rw [mmdSq_comm hk (fun t => dataset.data (f t)), mmdSq_comm hk (fun t => dataset.data (best t))]
    exact max_le_max_left 0 hdesc
  refine ⟨f, hfi rfl, by rw [hrun, hf]; rfl, fun cand hcand => hle.trans (hbest cand ?_), hle.trans (hbest _ ?_)⟩
  · exact List.mem_append_left _ hcand
  · exact List.mem_append_right _ (List.mem_singleton.2 rfl)

/-- A coreset larger than the dataset is refused. -/
theorem C20_reduce_error (big : ℝ) (k sk : X → X → ℝ) (c : Ext ℝ) (u : ℕ → ℝ) (choice : Choice n size ℝ)
    (ord : List (Fin (size + (size - size)))) (m : ℕ) (dataset : Data n X ℝ) (hs : n < size) :
    ktReduce big k sk c u choice ord m dataset = .error .valueError := by
  unfold ktReduce
  rw [if_pos hs]

end Choose

/-! ### Compress++ -/

/-- What is assumed of the external draws, of the order of conflicting writes and of the computed number of halvings. -/
structure KTContract {X : Type*} (P : KTParams X) : Prop where
  choice : ∀ n size, ChoiceContract (P.choice n size)
  ord : ∀ size t, t ∈ P.ord size
  halvings : ∀ l size, 0 < size → size ≤ l → size * 2 ^ P.halvings l size ≤ l

section Compress
variable {X : Type w} [Zero X] {n : ℕ} [NeZero n]

theorem cppThin_valid (P : KTParams X) (hP : KTContract P) (dataset : Data n X ℝ) (hw : ∀ i, 0 < dataset.weights i)
    {l : ℕ} [NeZero l] (size : ℕ) [NeZero size] (hs : size ≤ l) (f : Fin l → Fin n) (hf : Function.Injective f) :
    ∃ g : Fin size → Fin n, Function.Injective g ∧ (∀ t, ∃ s, g t = f s) ∧
      cppThin P dataset size (fun t => ((f t : ℕ) : ℤ)) = .ok (fun t => ((g t : ℕ) : ℤ)) := by
  obtain ⟨r, hr, hred⟩ := C20_reduce_valid P.big P.k P.sk P.c P.u (P.choice l size) (hP.choice l size) (P.ord size)
    (hP.ord size) (P.halvings l size) (hP.halvings l size (NeZero.pos size) hs) (dataset.getItem (fun t => ((f t : ℕ) : ℤ)))
    (fun i => hw _)
  refine ⟨fun t => f (r t), fun a b hab => hr (hf hab), fun t => ⟨r t, rfl⟩, ?_⟩
  unfold cppThin
  rw [hred]
  simp

theorem cppCompress_valid (P : KTParams X) (hP : KTContract P) (dataset : Data n X ℝ) (hw : ∀ i, 0 < dataset.weights i)
    (g : ℕ) : ∀ (j : ℕ) (f : Fin (cppRows g j) → Fin n), Function.Injective f →
      ∃ r : Fin (cppSize g j) → Fin n, Function.Injective r ∧ (∀ t, ∃ s, r t = f s) ∧
        cppCompress P dataset g j (fun t => ((f t : ℕ) : ℤ)) = .ok (fun t => ((r t : ℕ) : ℤ))
  | 0, f, hf => ⟨f, hf, fun t => ⟨t, rfl⟩, rfl⟩
  | j + 1, f, hf => by
    have hsub : ∀ q : Fin 4, Function.Injective (fun t : Fin (cppRows g j) => f (finProdFinEquiv (q, t))) := by
      intro q a b hab
      have := finProdFinEquiv.injective (hf hab)
      exact (Prod.ext_iff.1 this).2
    have ih := fun q => cppCompress_valid P hP dataset hw g j (fun t => f (finProdFinEquiv (q, t))) (hsub q)
    choose r hinj hmem hok using ih
    have hcat : Function.Injective (fun p : Fin (4 * cppSize g j) => r (finProdFinEquiv.symm p).1 (finProdFinEquiv.symm p).2) := by
      intro a b hab
      simp only at hab
      obtain ⟨s, hs⟩ := hmem (finProdFinEquiv.symm a).1 (finProdFinEquiv.symm a).2
      obtain ⟨s', hs'⟩ := hmem (finProdFinEquiv.symm b).1 (finProdFinEquiv.symm b).2
      have heq : (finProdFinEquiv ((finProdFinEquiv.symm a).1, s) : Fin (4 * cppRows g j))
          = finProdFinEquiv ((finProdFinEquiv.symm b).1, s') := hf (by rw [← hs, ← hs', hab])
      have h1 := (Prod.ext_iff.1 (finProdFinEquiv.injective heq)).1
      simp only at h1
      rw [← h1] at hab
      have h2 := hinj _ hab
      exact finProdFinEquiv.symm.injective (Prod.ext h1 h2)
    have : NeZero (4 * cppSize g j) := ⟨by have := NeZero.ne (cppSize g j); omega⟩
    have : NeZero (2 * cppSize g j) := ⟨by have := NeZero.ne (cppSize g j); omega⟩
    obtain ⟨r', hr', hm', hok'⟩ := cppThin_valid P hP dataset hw (2 * cppSize g j) (by omega) _ hcat
    refine ⟨r', hr', ?_, ?_⟩
    · intro t
      obtain ⟨s, hs⟩ := hm' t
      obtain ⟨s', hs'⟩ := hmem (finProdFinEquiv.symm s).1 (finProdFinEquiv.symm s).2
      exact ⟨_, hs.trans hs'⟩
    · have e0 := hok 0
      have e1 := hok 1
      have e2 := hok 2
      have e3 := hok 3
      simp only [cppCompress]
      rw [e0, e1, e2, e3]
      simp only
      refine (congrArg (cppThin P dataset (2 * cppSize g j)) (funext fun p => ?_)).trans hok'
      rcases (finProdFinEquiv.symm p) with ⟨q, t⟩
      fin_cases q <;> rfl

theorem cppRows_eq (g j : ℕ) : cppRows g j = 4 ^ (g + j) := by
  induction j with
  | zero => rfl
  | succ j ih => rw [cppRows, ih, ← add_assoc, pow_succ]; ring

/-- The number of indices left after compressing `4**(g + j)` of them. -/
theorem cppSize_eq (g j : ℕ) : cppSize g j = 2 ^ (2 * g + j) := by
  induction j with
  | zero => rw [cppSize, show (4 : ℕ) = 2 ^ 2 by norm_num, ← pow_mul, add_zero]
  | succ j ih => rw [cppSize, ih, ← add_assoc, pow_succ]; ring

/-- Compress++ at any level `p` with `4**p ≤ n` succeeds for `0 ≤ g ≤ p` and `size ≤ min(n, 2**g * sqrt(4**p))`, and then returns
`size` distinct valid rows (positive data weights). -/
theorem C21_valid_at {size : ℕ} [NeZero size] (P : KTParams X) (hP : KTContract P) (g : ℤ) (clip : ∀ l : ℕ, Choice n l ℝ)
    (hclip : ∀ l, ChoiceContract (clip l)) (dataset : Data n X ℝ) (hw : ∀ i, 0 < dataset.weights i)
    (hs : size ≤ n) (hg : 0 ≤ g) (p : ℕ) (hp : 4 ^ p ≤ n) (hgp : g ≤ p) (hsg : size ≤ 2 ^ g.toNat * 2 ^ p) :
    ∃ f : Fin size → Fin n, Function.Injective f ∧
      compressPlusPlusAt (size := size) p P g clip dataset = .ok (fun t => ((f t : ℕ) : ℤ)) := by
  obtain ⟨g', rfl⟩ := Int.eq_ofNat_of_zero_le hg
  have hg' : g' ≤ p := by exact_mod_cast hgp
  have hrows : cppRows g' (p - g') ≤ n := by
    rw [cppRows_eq, Nat.add_sub_cancel' hg']; exact hp
  have hcf : choiceFails n (cppRows g' (p - g')) false = false := by
    have := NeZero.pos n
    simp [choiceFails]; omega
  choose f hf using (hclip (cppRows g' (p - g'))).range none false hcf
  have hfi : Function.Injective f := fun a b hab => (hclip _).distinct none hcf (by rw [hf, hf, hab])
  obtain ⟨r, hri, -, hr⟩ := cppCompress_valid P hP dataset hw g' (p - g') f hfi
  have hsz : size ≤ cppSize g' (p - g') := by
    rw [cppSize_eq]
    simp only [Int.ofNat_eq_natCast, Int.toNat_natCast] at hsg
    rw [← pow_add] at hsg
    rwa [show 2 * g' + (p - g') = g' + p by omega]
  obtain ⟨r', hri', -, hr'⟩ := cppThin_valid P hP dataset hw size hsz r hri
  refine ⟨r', hri', ?_⟩
  unfold compressPlusPlusAt
  rw [if_neg (by omega)]
  rw [dif_pos ⟨hg, hgp⟩, if_pos hsg]
  simp only [Int.ofNat_eq_natCast, Int.toNat_natCast]
  rw [show clip (cppRows g' (p - g')) none false = fun t => ((f t : ℕ) : ℤ) from funext hf, hr]
  exact hr'

/-- The refusals of Compress++ at a level: too large a coreset, or an oversampling factor or size that does not fit. -/
theorem C21_error_at {size : ℕ} [NeZero size] (P : KTParams X) (g : ℤ) (clip : ∀ l : ℕ, Choice n l ℝ)
    (dataset : Data n X ℝ) (p : ℕ)
    (hbad : n < size ∨ g < 0 ∨ (p : ℤ) < g ∨ 2 ^ g.toNat * 2 ^ p < size) :
    compressPlusPlusAt (size := size) p P g clip dataset = .error .valueError := by
  unfold compressPlusPlusAt
  by_cases h1 : size > n
  · rw [if_pos h1]
  rw [if_neg h1]
  by_cases h2 : 0 ≤ g ∧ g ≤ p
  · rw [dif_pos h2, if_neg (by omega)]
  · rw [dif_neg h2]

/-- Compress++ succeeds exactly for `0 ≤ g ≤ ⌊log₄ n⌋` and `size ≤ min(n, 2**g * sqrt(4**⌊log₄ n⌋))`, and then returns
`size` distinct valid rows (positive data weights). -/
theorem C21_valid {size : ℕ} [NeZero size] (P : KTParams X) (hP : KTContract P) (g : ℤ) (clip : ∀ l : ℕ, Choice n l ℝ)
    (hclip : ∀ l, ChoiceContract (clip l)) (dataset : Data n X ℝ) (hw : ∀ i, 0 < dataset.weights i)
    (hs : size ≤ n) (hg : 0 ≤ g) (p : ℕ) (hp : 4 ^ p ≤ n ∧ n < 4 ^ (p + 1)) (hgp : g ≤ p) (hsg : size ≤ 2 ^ g.toNat * 2 ^ p) :
    ∃ f : Fin size → Fin n, Function.Injective f ∧
      compressPlusPlus (size := size) P g clip dataset = .ok (fun t => ((f t : ℕ) : ℤ)) := by
  have hlog : Nat.log 4 n = p := (Nat.log_eq_iff (Or.inr ⟨by norm_num, NeZero.ne n⟩)).2 hp
  unfold compressPlusPlus
  rw [hlog]
  exact C21_valid_at P hP g clip hclip dataset hw hs hg p hp.1 hgp hsg

/-- The refusals of Compress++: too large a coreset, or an oversampling factor or size that does not fit. -/
theorem C21_error {size : ℕ} [NeZero size] (P : KTParams X) (g : ℤ) (clip : ∀ l : ℕ, Choice n l ℝ)
    (dataset : Data n X ℝ) (p : ℕ) (hp : 4 ^ p ≤ n ∧ n < 4 ^ (p + 1))
    (hbad : n < size ∨ g < 0 ∨ (p : ℤ) < g ∨ 2 ^ g.toNat * 2 ^ p < size) :
    compressPlusPlus (size := size) P g clip dataset = .error .valueError := by
  have hlog : Nat.log 4 n = p := (Nat.log_eq_iff (Or.inr ⟨by norm_num, NeZero.ne n⟩)).2 hp
  unfold compressPlusPlus
  rw [hlog]
  exact C21_error_at P g clip dataset p hbad

end Compress

end Coreax
