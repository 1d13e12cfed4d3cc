import Verif.Model.Benchmarks
import Verif.Props.Median

/-!
# C59: in the blobs benchmark the seed is passed as the failure probability of kernel thinning
-/

set_option linter.unusedSectionVars false

namespace Coreax

open Spec

/-! ### The constant -/

/-- C59: the constant of the swapping thresholds is a number exactly for `0 < delta ≤ 2`; otherwise it is NaN. -/
theorem C59_constant_number (delta : ℝ) : (∃ c, 0 ≤ c ∧ ktConstant delta = .fin c) ↔ 0 < delta ∧ delta ≤ 2 := by
  unfold ktConstant
  constructor
  · rintro ⟨c, -, h⟩
    split_ifs at h with h1 h2
    push Not at h1 h2
    refine ⟨h1, ?_⟩
    by_contra hd
    push Not at hd
    have : Real.log (2 / delta) < 0 := Real.log_neg (by positivity) (by rw [div_lt_one h1]; exact hd)
    unfold thinningRadicand at h2
    linarith
  · rintro ⟨h1, h2⟩
    have : 0 ≤ Real.log (2 / delta) := Real.log_nonneg (by rw [le_div_iff₀ h1]; linarith)
    rw [if_neg (not_le.2 h1), if_neg (by unfold thinningRadicand; linarith)]
    exact ⟨_, Real.sqrt_nonneg _, rfl⟩

/-- C59: in `main`, every solver that has a failure probability gets a NaN constant as soon as the seed is at least three, as all seeds of the benchmark are. -/
theorem C59_seed_gives_nan (seed : ℤ) (hseed : 3 ≤ seed) (size : ℕ) (s : SolverConfig) (hs : s ∈ blobsSolvers seed size) (delta : ℝ)
    (hd : s.delta = some delta) : ktConstant delta = .nan := by
  have hds : delta = seed := by
    simp only [blobsSolvers, setupSolvers, List.mem_cons, List.not_mem_nil, or_false] at hs
    rcases hs with rfl | rfl | rfl | rfl | rfl | rfl | rfl | rfl | rfl <;> simp_all
  have h3 : (3 : ℝ) ≤ delta := by rw [hds]; exact_mod_cast hseed
  have hn : ¬ ∃ c, 0 ≤ c ∧ ktConstant delta = .fin c := by
    rw [C59_constant_number]
    rintro ⟨-, h⟩
    linarith
  have hrange : ktConstant delta = .nan ∨ ∃ c, 0 ≤ c ∧ ktConstant delta = .fin c := by
    unfold ktConstant
    split_ifs
    · exact .inl rfl
    · exact .inl rfl
    · exact .inr ⟨_, Real.sqrt_nonneg _, rfl⟩
  exact hrange.resolve_right hn

/-- C59: the random keys do not depend on the seed: in every run they are made from 45, and only herding and Stein thinning have none. Two solvers of every
run do have a failure probability; all nine names differ and all solvers have the given size. -/
theorem C59_same_keys (seed seed' : ℤ) (size : ℕ) :
    ((blobsSolvers seed size).map fun s => (s.name, s.method, s.size, s.seed)) = (blobsSolvers seed' size).map (fun s => (s.name, s.method, s.size, s.seed)) ∧
      (∀ s ∈ blobsSolvers seed size, s.seed = none ∧ (s.method = .kernelHerding ∨ s.method = .steinThinning) ∨
        s.seed = some 45 ∧ s.method ≠ .kernelHerding ∧ s.method ≠ .steinThinning) ∧
      (∀ s ∈ blobsSolvers seed size, s.size = size) ∧
      ((blobsSolvers seed size).map (·.name)).Nodup ∧ (blobsSolvers seed size).length = 9 ∧
      (∀ m : Method, ∃ s ∈ blobsSolvers seed size, s.method = m) ∧
      ((blobsSolvers seed size).filterMap fun s => s.delta.map fun _ => s.method) = [.kernelThinning, .compressPlusPlus] := by
  refine ⟨rfl, ?_, ?_, ?_, rfl, ?_, rfl⟩
  · intro s hs
    simp only [blobsSolvers, setupSolvers, List.mem_cons, List.not_mem_nil, or_false] at hs
    rcases hs with rfl | rfl | rfl | rfl | rfl | rfl | rfl | rfl | rfl <;> simp
  · intro s hs
    simp only [blobsSolvers, setupSolvers, List.mem_cons, List.not_mem_nil, or_false] at hs
    rcases hs with rfl | rfl | rfl | rfl | rfl | rfl | rfl | rfl | rfl <;> rfl
  · simp only [blobsSolvers, setupSolvers, List.map_cons, List.map_nil]
    decide
  · intro m
    cases m <;> simp [blobsSolvers, setupSolvers]

/-- The seeds of the script. -/
example : ∀ seed ∈ [(42 : ℤ), 45, 46, 47, 48], ∀ s ∈ blobsSolvers seed 25, ∀ delta, s.delta = some delta → ktConstant delta = .nan := by
  intro seed hseed s hs delta hd
  refine C59_seed_gives_nan seed ?_ 25 s hs delta hd
  simp only [List.mem_cons, List.not_mem_nil, or_false] at hseed
  omega

/-! ### What kernel thinning does with a NaN constant -/

section candidates
variable {X K : Type*} [Field K] [LinearOrder K] [IsStrictOrderedRing K] {n size : ℕ} [NeZero n] [NeZero size]

theorem ktHalf_nan {h : ℕ} [NeZero (2 * h)] (root : K → K) (k : X → X → K) (u : ℕ → K) (x : Fin (2 * h) → X) :
    ktHalf root k Ext.nan u x = (fun i : Fin h => 2 * (i : ℤ), fun i : Fin h => 2 * (i : ℤ) + 1) := by
  refine Prod.ext (funext fun i => ?_) (funext fun i => ?_)
  · exact (C44_nan_deterministic root k u x i).1
  · exact (C44_nan_deterministic root k u x i).2

/-- The offsets in the order of the recursion. -/
def offsets : ℕ → List ℕ
  | 0 => [0]
  | m + 1 => (offsets m).map (2 * ·) ++ (offsets m).map (2 * · + 1)

theorem perm_double (l : List ℕ) (N : ℕ) (h : l.Perm (List.range N)) : (l.map (2 * ·) ++ l.map (2 * · + 1)).Perm (List.range (2 * N)) := by
  have h1 := ((h.map (2 * ·)).append (h.map (2 * · + 1)))
  refine h1.trans ?_
  rw [List.perm_ext_iff_of_nodup]
  · intro a
    simp only [List.mem_append, List.mem_map, List.mem_range]
    constructor
    · rintro (⟨b, hb, rfl⟩ | ⟨b, hb, rfl⟩) <;> omega
    · intro ha
      rcases Nat.even_or_odd' a with ⟨b, rfl | rfl⟩
      · exact .inl ⟨b, by omega, rfl⟩
      · exact .inr ⟨b, by omega, rfl⟩
  · rw [List.nodup_append]
    refine ⟨(List.nodup_range).map (fun a b h => by simpa using h), (List.nodup_range).map (fun a b h => by simpa using h), ?_⟩
    intro a ha b hb
    simp only [List.mem_map, List.mem_range] at ha hb
    obtain ⟨c, -, rfl⟩ := ha
    obtain ⟨e, -, rfl⟩ := hb
    omega
  · exact List.nodup_range

theorem offsets_perm (m : ℕ) : (offsets m).Perm (List.range (2 ^ m)) := by
  induction m with
  | zero => exact List.Perm.refl _
  | succ m ih => rw [offsets, pow_succ, Nat.mul_comm]; exact perm_double _ _ ih

theorem ktHalfRecursive_nan (root : K → K) (k : X → X → K) (u : ℕ → K) (d : Fin n → X) :
    ∀ (m : ℕ) (parent : Fin (ktRows size m) → ℤ) (a b : ℤ), (∀ t, parent t = a * (t : ℕ) + b) →
      ktHalfRecursive (size := size) root k Ext.nan u d m parent = (offsets m).map fun (o : ℕ) (t : Fin size) => a * (((t : ℕ) : ℤ) * 2 ^ m + (o : ℤ)) + b
  | 0, parent, a, b, hp => by
    have : parent = fun t : Fin (ktRows size 0) => a * ((t : ℕ) : ℤ) + b := funext hp
    subst this
    simp only [ktHalfRecursive, offsets, List.map_cons, List.map_nil, pow_zero, mul_one, Nat.cast_zero, add_zero]
    rfl
  | m + 1, parent, a, b, hp => by
    simp only [ktHalfRecursive, ktHalf_nan]
    have hg : ∀ (t : Fin (ktRows size m)) (e : ℕ) (he : e < 2), (gatherIdx (2 * ktRows size m) (2 * (t : ℤ) + (e : ℤ)) : ℕ) = 2 * (t : ℕ) + e := by
      intro t e he
      have := t.2
      simp only [gatherIdx]
      rw [if_neg (by omega)]
      omega
    have h1 : ∀ t : Fin (ktRows size m), parent (gatherIdx (2 * ktRows size m) (2 * (t : ℤ))) = (2 * a) * ((t : ℕ) : ℤ) + b := by
      intro t
      have := hg t 0 (by norm_num)
      simp only [Nat.cast_zero, add_zero] at this
      refine (hp _).trans ?_
      rw [this]
      push_cast
      ring
    have h2 : ∀ t : Fin (ktRows size m), parent (gatherIdx (2 * ktRows size m) (2 * (t : ℤ) + 1)) = (2 * a) * ((t : ℕ) : ℤ) + (a + b) := by
      intro t
      have := hg t 1 (by norm_num)
      simp only [Nat.cast_one] at this
      refine (hp _).trans ?_
      rw [this]
      push_cast
      ring
    rw [ktHalfRecursive_nan root k u d m _ _ _ h1, ktHalfRecursive_nan root k u d m _ _ _ h2]
    simp only [offsets, List.map_append, List.map_map]
    congr 1
    · refine List.map_congr_left fun o _ => funext fun t => ?_
      simp only [Function.comp]
      push_cast
      ring
    · refine List.map_congr_left fun o _ => funext fun t => ?_
      simp only [Function.comp]
      push_cast
      ring

theorem ktPartition_nan (root : K → K) (k : X → X → K) (u : ℕ → K) (d : Fin n → X) (m : ℕ) :
    ktPartition (size := size) root k Ext.nan u d m = (offsets m).map fun (o : ℕ) (t : Fin size) => ((t : ℕ) : ℤ) * 2 ^ m + (o : ℤ) := by
  cases m with
  | zero =>
    simp only [ktPartition, offsets, List.map_cons, List.map_nil, pow_zero, mul_one, Nat.cast_zero, add_zero]
  | succ m =>
    simp only [ktPartition, ktHalf_nan]
    rw [ktHalfRecursive_nan root k u d m _ 2 0 (fun t => by simp), ktHalfRecursive_nan root k u d m _ 2 1 (fun t => by simp)]
    simp only [offsets, List.map_append, List.map_map]
    congr 1
    · refine List.map_congr_left fun o _ => funext fun t => ?_
      simp only [Function.comp]
      push_cast
      ring
    · refine List.map_congr_left fun o _ => funext fun t => ?_
      simp only [Function.comp]
      push_cast
      ring

/-- C59: with a NaN constant the candidates of kernel thinning are the rows taken in steps of `2^m`, one candidate for each starting row: the data, the
square-root kernel and the random numbers have no influence. -/
theorem C59_candidates (root : K → K) (k : X → X → K) (u : ℕ → K) (d : Fin n → X) (m : ℕ) :
    ∃ starts : List ℕ, starts.Perm (List.range (2 ^ m)) ∧
      ∀ (root' : K → K) (k' : X → X → K) (u' : ℕ → K) (d' : Fin n → X),
        ktPartition (size := size) root' k' Ext.nan u' d' m = starts.map fun (o : ℕ) (t : Fin size) => ((t : ℕ) : ℤ) * 2 ^ m + (o : ℤ) :=
  ⟨offsets m, offsets_perm m, fun root' k' u' d' => ktPartition_nan root' k' u' d' m⟩

end candidates

/-- C59: in the benchmark (seed at least three) the result of kernel thinning is the same whatever the square-root kernel and the draws of the halving are. -/
theorem C59_thinning_ignores {X : Type*} [Zero X] {n size : ℕ} [NeZero n] [NeZero size] (seed : ℤ) (hseed : 3 ≤ seed) (s : SolverConfig)
    (hs : s ∈ blobsSolvers seed size) (delta : ℝ) (hd : s.delta = some delta) (big : ℝ) (k sk sk' : X → X → ℝ) (u u' : ℕ → ℝ) (choice : Choice n size ℝ)
    (ord : List (Fin (size + (size - size)))) (m : ℕ) (dataset : Data n X ℝ) :
    ktReduce big k sk (ktConstant delta) u choice ord m dataset = ktReduce big k sk' (ktConstant delta) u' choice ord m dataset := by
  rw [C59_seed_gives_nan seed hseed size s hs delta hd]
  simp only [ktReduce, ktPartition_nan]

example (k sk sk' : ℝ → ℝ → ℝ) (u u' : ℕ → ℝ) (choice : Choice 1000 25 ℝ) (ord : List (Fin (25 + (25 - 25)))) (d : Data 1000 ℝ ℝ) (s : SolverConfig) (hs : s ∈ blobsSolvers 42 25) (delta : ℝ)
    (hd : s.delta = some delta) := C59_thinning_ignores 42 (by norm_num) s hs delta hd 1000 k sk sk' u u' choice ord 20 d

/-- C59: the same for Compress++, in all its halvings and the final thinning. -/
theorem C59_compress_ignores {X : Type*} [Zero X] {n size : ℕ} [NeZero n] [NeZero size] (seed : ℤ) (hseed : 3 ≤ seed) (s : SolverConfig)
    (hs : s ∈ blobsSolvers seed size) (delta : ℝ) (hd : s.delta = some delta) (P : KTParams X) (sk' : X → X → ℝ) (u' : ℕ → ℝ) (g : ℤ)
    (clip : ∀ l : ℕ, Choice n l ℝ) (dataset : Data n X ℝ) :
    compressPlusPlus (size := size) { P with c := ktConstant delta } g clip dataset =
      compressPlusPlus { P with c := ktConstant delta, sk := sk', u := u' } g clip dataset := by
  rw [C59_seed_gives_nan seed hseed size s hs delta hd]
  have hthin : ∀ {l : ℕ} [NeZero l] (sz : ℕ) [NeZero sz] (ind : Fin l → ℤ),
      cppThin { P with c := .nan } dataset sz ind = cppThin { P with c := .nan, sk := sk', u := u' } dataset sz ind := by
    intro l _ sz _ ind
    simp only [cppThin, ktReduce, ktPartition_nan]
  have hcomp : ∀ (j : ℕ) (ind : Fin (cppRows g.toNat j) → ℤ),
      cppCompress { P with c := .nan } dataset g.toNat j ind = cppCompress { P with c := .nan, sk := sk', u := u' } dataset g.toNat j ind := by
    intro j
    induction j with
    | zero => intro ind; rfl
    | succ j ih => intro ind; simp only [cppCompress, ih, hthin]
  simp only [compressPlusPlus, compressPlusPlusAt, hcomp, hthin]

/-- A delta that the method allows does not have this effect: the draws matter. -/
example : (ktHalf (h := 1) (id : ℚ → ℚ) (fun a b : ℚ => if a = b then 1 else 0) (Ext.fin 1) (fun _ => 1 / 4) (fun i => ((i : ℕ) : ℚ))).1 0 = 1 ∧
    (ktHalf (h := 1) (id : ℚ → ℚ) (fun a b : ℚ => if a = b then 1 else 0) (Ext.fin 1) (fun _ => 3 / 4) (fun i => ((i : ℕ) : ℚ))).1 0 = 0 := by
  decide +kernel

end Coreax
