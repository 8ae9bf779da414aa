import Verif.Lemmas.Estim
import Verif.Lemmas.LeastSq
import Verif.Props.Ffe

/-! Property theorems C58 (equalizer estimation). -/

set_option linter.unusedSectionVars false

open Finset

namespace Verif

open Spec (eqOutput mirrored IsLs withPast)

variable {K : Type} [Field K] [LinearOrder K] [IsStrictOrderedRing K]

/-- **C58.** Which regularization the solver sees: without one, or with a factor that is not positive (whatever the
regularization string), the result is that of ordinary least squares and depends on nothing else the solver can do; with a
positive factor the solver is asked for exactly this regularization with this factor. -/
theorem C58_regularization (ls ls' : Solver K) (reference signal : List K) (post pre dfe : ℕ) (nm : Bool) (reg : Reg) (lam : K) :
    (reg = .none ∨ lam ≤ 0 → (∀ A b, ls' .none 0 A b = ls .none 0 A b) →
      equalizationEstimation ls reference signal post pre dfe nm reg lam
        = equalizationEstimation ls' reference signal post pre dfe nm .none 0) ∧
    (reg ≠ .none → 0 < lam → (∀ A b, ls' reg lam A b = ls reg lam A b) →
      equalizationEstimation ls reference signal post pre dfe nm reg lam
        = equalizationEstimation ls' reference signal post pre dfe nm reg lam) := by
  have congr : ∀ reg' lam', (∀ A b, eqSolve ls reg lam A b = eqSolve ls' reg' lam' A b) →
      equalizationEstimation ls reference signal post pre dfe nm reg lam
        = equalizationEstimation ls' reference signal post pre dfe nm reg' lam' := by
    intro reg' lam' h
    unfold equalizationEstimation
    simp only [h]
  constructor
  · intro h e
    refine congr _ _ fun A b => ?_
    rw [eqSolve, eqSolve, if_neg, if_neg (by simp), e]
    rintro ⟨h1, h2⟩
    rcases h with h | h
    · exact h1 h
    · exact absurd h2 (not_lt.2 h)
  · intro h1 h2 e
    refine congr _ _ fun A b => ?_
    rw [eqSolve, eqSolve, if_pos ⟨h1, h2⟩, if_pos ⟨h1, h2⟩, e]

/-- with ridge and a factor of zero, a solver that fails for anything but ordinary least squares is good enough -/
example : (equalizationEstimation (K := ℚ) (fun reg _ A _ => if reg = .none then .ok (List.replicate (A.headD []).length 1, []) else .error .valueError)
    [1, -1, 1, 1, -1] [1, -1, 1, 1, -1] 1 1 0 false .ridge 0).isOk = true := by decide +kernel

/-- **C58.** For reference and signal of the same length `N ≥ dfe + post + pre + 1`, with `R = N - (max(post,dfe)+pre+1)`
rows: the solver is called with a matrix and right-hand side such that for *every* coefficient vector `x`, row `i` of
the residual is the equalizer output for symbol `dfe + i` minus that reference symbol, where the FFE and DFE taps are
read off `x` in the way the function returns them and the FFE sees the signal, reflected at its last sample.
The function returns these taps, and the mean squares of residual and output. -/
theorem C58_system (ls : Solver K) (reference signal : List K) (post pre dfe R : ℕ) (reg : Reg) (lam : K)
    (hl : reference.length = signal.length) (hc : dfe + post + pre + 1 ≤ signal.length)
    (hR : R + (max post dfe + pre + 1) = signal.length) :
    ∃ A b, A.length = R ∧ b.length = R ∧ (∀ row ∈ A, row.length = post + pre + 1 + dfe) ∧
      (∀ x : List K, x.length = post + pre + 1 + dfe → ∀ i < R,
        ∑ j ∈ range (post + pre + 1 + dfe), (A.getD i []).getD j 0 * x.getD j 0 - b.getD i 0
          = eqOutput (x.take (post + pre + 1)).reverse (x.drop (post + pre + 1)).reverse (mirrored signal)
              (fun t => reference.getD t 0) (dfe + i) - reference.getD (dfe + i) 0) ∧
      ∀ x e, eqSolve ls reg lam A b = .ok (x, e) → x.length = post + pre + 1 + dfe →
        ∃ r, equalizationEstimation ls reference signal post pre dfe false reg lam = .ok r ∧
          r.ffe = (x.take (post + pre + 1)).reverse ∧
          r.dfe = (if dfe = 0 then none else some (x.drop (post + pre + 1)).reverse) ∧ r.gain = 1 ∧ r.lsErr = e ∧
          r.mse.1 = (∑ i ∈ range R, (eqOutput r.ffe (r.dfe.getD []) (mirrored signal)
            (fun t => reference.getD t 0) (dfe + i) - reference.getD (dfe + i) 0) ^ 2) / R ∧
          r.mse.2 = (∑ i ∈ range R, (eqOutput r.ffe (r.dfe.getD []) (mirrored signal)
            (fun t => reference.getD t 0) (dfe + i)) ^ 2) / R := by
  have hbl : ((reference.drop dfe).take R).length = R := by simp; omega
  have hb : ∀ i < R, ((reference.drop dfe).take R).getD i 0 = reference.getD (dfe + i) 0 := by
    intro i hi
    rw [take_getD _ _ _ _ hi, drop_getD]
  refine ⟨(List.range R).map (eqRow reference signal (post + pre + 1) dfe), (reference.drop dfe).take R, by simp, hbl,
    ?_, ?_, ?_⟩
  · intro row hrow
    obtain ⟨i, -, rfl⟩ := List.mem_map.1 hrow
    exact eqRow_length _ _ _ _ _
  · intro x hx i hi
    rw [map_range_getD _ _ _ _ hi, hb i hi, ← eqRow_dot reference signal x (post + pre + 1) dfe i (by omega) hx,
      dotL_eq _ _ (by rw [eqRow_length, hx]), eqRow_length]
  · intro x e hs hx
    have h := (estimation_ok ls reference signal post pre dfe R reg lam hl hc hR x e hx hs).1
    have hd0 : dfe = 0 → x.drop (post + pre + 1) = [] := by
      intro h0; rw [List.drop_eq_nil_iff]; omega
    have hdd : ((if dfe > 0 then some (x.drop (post + pre + 1)).reverse else none : Option (List K)).getD [])
        = (x.drop (post + pre + 1)).reverse := by
      split_ifs with h0
      · rfl
      · rw [hd0 (by omega)]; rfl
    refine ⟨_, h, rfl, ?_, rfl, rfl, ?_, ?_⟩
    · by_cases h0 : dfe = 0
      · simp [h0]
      · simp [h0, Nat.pos_of_ne_zero h0]
    · simp only [hdd]
      rw [powerL, List.length_zipWith, List.length_map, List.length_range, hbl, min_self, list_map_sum_getD]
      congr 1
      rw [List.length_zipWith, List.length_map, List.length_range, hbl, min_self]
      refine sum_congr rfl (fun i hi => ?_)
      rw [mem_range] at hi
      rw [zipWith_getD _ 0 0 0 _ _ (by simpa using hi) (by omega), map_range_getD _ _ _ _ hi, hb i hi]
      ring
    · simp only [hdd]
      rw [powerL, List.length_map, List.length_range, list_map_sum_getD, List.length_map, List.length_range]
      congr 1
      refine sum_congr rfl (fun i hi => ?_)
      rw [mem_range] at hi
      rw [map_range_getD _ _ _ _ hi]
      ring

/-- **C58.** Solvers as assumed below exist, for every number of columns. -/
theorem C58_solver (cols : ℕ) : ∃ ls : Solver K, IsLs (solveWith ls .none 0) cols := by
  have h : ∀ (A : List (List K)) (b : List K), ∃ x : List K, x.length = cols ∧ ∀ y : List K, y.length = cols →
      ∑ i ∈ range b.length, (∑ j ∈ range cols, (A.getD i []).getD j 0 * x.getD j 0 - b.getD i 0) ^ 2
        ≤ ∑ i ∈ range b.length, (∑ j ∈ range cols, (A.getD i []).getD j 0 * y.getD j 0 - b.getD i 0) ^ 2 := by
    intro A b
    obtain ⟨x, hx⟩ := exists_minimiser (Matrix.of fun (i : Fin b.length) (j : Fin cols) => (A.getD i []).getD j (0 : K))
      (fun i => b.getD i 0)
    have conv : ∀ y : List K, ∑ i ∈ range b.length, (∑ j ∈ range cols, (A.getD i []).getD j 0 * y.getD j 0 - b.getD i 0) ^ 2
        = Spec.ridgeCost (Matrix.of fun (i : Fin b.length) (j : Fin cols) => (A.getD i []).getD j (0 : K))
          (fun i => b.getD i 0) 0 (fun j => y.getD j 0) := by
      intro y
      unfold Spec.ridgeCost
      rw [zero_mul, add_zero, ← Fin.sum_univ_eq_sum_range
        (fun i => (∑ j ∈ range cols, (A.getD i []).getD j 0 * y.getD j 0 - b.getD i 0) ^ 2)]
      refine sum_congr rfl (fun i _ => ?_)
      rw [← Fin.sum_univ_eq_sum_range (fun j => (A.getD i []).getD j 0 * y.getD j 0)]
      rfl
    refine ⟨List.ofFn x, by simp, fun y _ => ?_⟩
    rw [conv, conv]
    have : (fun j : Fin cols => (List.ofFn x).getD j 0) = x := by
      funext j; simp
    rw [this]
    exact hx _
  choose g hg using h
  exact ⟨fun _ _ A b => .ok (g A b, []), fun A b _ _ => ⟨g A b, rfl, hg A b⟩⟩

/-- **C58.** With a solver that returns least squares solutions, the returned taps minimise the sum of the squared
differences between equalizer output and reference over all rows, among all taps of the same lengths; the FFE sees
the signal reflected at its last sample. -/
theorem C58_optimal_mirrored (ls : Solver K) (reference signal : List K) (post pre dfe R : ℕ) (reg : Reg) (lam : K)
    (hl : reference.length = signal.length) (hc : dfe + post + pre + 1 ≤ signal.length)
    (hR : R + (max post dfe + pre + 1) = signal.length)
    (hls : IsLs (solveWith ls reg lam) (post + pre + 1 + dfe)) :
    ∃ r, equalizationEstimation ls reference signal post pre dfe false reg lam = .ok r ∧
      r.ffe.length = post + pre + 1 ∧ (r.dfe.getD []).length = dfe ∧
      ∀ f d : List K, f.length = post + pre + 1 → d.length = dfe →
        ∑ i ∈ range R, (eqOutput r.ffe (r.dfe.getD []) (mirrored signal) (fun t => reference.getD t 0) (dfe + i)
            - reference.getD (dfe + i) 0) ^ 2
          ≤ ∑ i ∈ range R, (eqOutput f d (mirrored signal) (fun t => reference.getD t 0) (dfe + i)
            - reference.getD (dfe + i) 0) ^ 2 := by
  obtain ⟨A, b, hA, hb, hrow, hres, hret⟩ := C58_system ls reference signal post pre dfe R reg lam hl hc hR
  obtain ⟨x, hx, hxl, hmin⟩ := hls A b (by rw [hA, hb]) hrow
  have hsolve : ∃ e, eqSolve ls reg lam A b = .ok (x, e) := by
    rw [solveWith] at hx
    cases h : eqSolve ls reg lam A b with
    | error e => rw [h] at hx; cases hx
    | ok r => rw [h] at hx; cases hx; exact ⟨_, rfl⟩
  obtain ⟨e, he⟩ := hsolve
  obtain ⟨r, hr, hf, hd, -⟩ := hret x e he hxl
  have hd' : r.dfe.getD [] = (x.drop (post + pre + 1)).reverse := by
    rw [hd]
    split_ifs with h0
    · rw [show x.drop (post + pre + 1) = [] by rw [List.drop_eq_nil_iff]; omega]; rfl
    · rfl
  refine ⟨r, hr, by rw [hf]; simp; omega, by rw [hd']; simp; omega, fun f d hfl hdl => ?_⟩
  have h := hmin (f.reverse ++ d.reverse) (by simp; omega)
  rw [hb] at h
  have key : ∀ y : List K, y.length = post + pre + 1 + dfe →
      ∑ i ∈ range R, (∑ j ∈ range (post + pre + 1 + dfe), (A.getD i []).getD j 0 * y.getD j 0 - b.getD i 0) ^ 2
        = ∑ i ∈ range R, (eqOutput (y.take (post + pre + 1)).reverse (y.drop (post + pre + 1)).reverse (mirrored signal)
              (fun t => reference.getD t 0) (dfe + i) - reference.getD (dfe + i) 0) ^ 2 :=
    fun y hy => sum_congr rfl (fun i hi => by rw [hres y hy i (mem_range.1 hi)])
  rw [key x hxl, key (f.reverse ++ d.reverse) (by simp; omega)] at h
  have ht : ((f.reverse ++ d.reverse).take (post + pre + 1)).reverse = f := by
    rw [List.take_left' (by simp; omega), List.reverse_reverse]
  have hdr : ((f.reverse ++ d.reverse).drop (post + pre + 1)).reverse = d := by
    rw [List.drop_left' (by simp; omega), List.reverse_reverse]
  rw [ht, hdr] at h
  rw [hf, hd']
  exact h

/-- **C58** (partial: at most one of the tap counts `post`, `dfe` exceeds one; see `C58_negative_overflow`). With a
solver that returns least squares solutions, the returned taps minimise the sum of the squared differences between the
output of the equalizer equation with ideal decisions and the reference over all rows. -/
theorem C58_optimal_partial (ls : Solver K) (reference signal : List K) (post pre dfe R : ℕ) (reg : Reg) (lam : K)
    (hl : reference.length = signal.length) (hc : dfe + post + pre + 1 ≤ signal.length)
    (hR : R + (max post dfe + pre + 1) = signal.length) (hmin : min post dfe ≤ 1)
    (hls : IsLs (solveWith ls reg lam) (post + pre + 1 + dfe)) :
    ∃ r, equalizationEstimation ls reference signal post pre dfe false reg lam = .ok r ∧
      r.ffe.length = post + pre + 1 ∧ (r.dfe.getD []).length = dfe ∧
      ∀ f d : List K, f.length = post + pre + 1 → d.length = dfe →
        ∑ i ∈ range R, (eqOutput r.ffe (r.dfe.getD []) (fun t => signal.getD t 0) (fun t => reference.getD t 0) (dfe + i)
            - reference.getD (dfe + i) 0) ^ 2
          ≤ ∑ i ∈ range R, (eqOutput f d (fun t => signal.getD t 0) (fun t => reference.getD t 0) (dfe + i)
            - reference.getD (dfe + i) 0) ^ 2 := by
  obtain ⟨r, h1, h2, h3, h4⟩ := C58_optimal_mirrored ls reference signal post pre dfe R reg lam hl hc hR hls
  refine ⟨r, h1, h2, h3, fun f d hf hd => ?_⟩
  have hm : ∀ f' d' : List K, f'.length = post + pre + 1 → ∀ i ∈ range R,
      eqOutput f' d' (mirrored signal) (fun t => reference.getD t 0) (dfe + i)
        = eqOutput f' d' (fun t => signal.getD t 0) (fun t => reference.getD t 0) (dfe + i) := by
    intro f' d' hf' i hi
    rw [mem_range] at hi
    refine eqOutput_congr f' d' _ _ _ _ (fun t ht => ?_)
    rw [mirrored, if_pos (by omega)]
  have h := h4 f d hf hd
  have key : ∀ f' d' : List K, f'.length = post + pre + 1 →
      ∑ i ∈ range R, (eqOutput f' d' (mirrored signal) (fun t => reference.getD t 0) (dfe + i)
          - reference.getD (dfe + i) 0) ^ 2
        = ∑ i ∈ range R, (eqOutput f' d' (fun t => signal.getD t 0) (fun t => reference.getD t 0) (dfe + i)
          - reference.getD (dfe + i) 0) ^ 2 :=
    fun f' d' hf' => sum_congr rfl (fun i hi => by rw [hm f' d' hf' i hi])
  rw [key _ _ h2, key _ _ hf] at h
  exact h

/-- **C58** (partial as above). If some taps reproduce the reference exactly in all rows, so do the returned ones. -/
theorem C58_exact_partial (ls : Solver K) (reference signal : List K) (post pre dfe R : ℕ) (reg : Reg) (lam : K)
    (hl : reference.length = signal.length) (hc : dfe + post + pre + 1 ≤ signal.length)
    (hR : R + (max post dfe + pre + 1) = signal.length) (hmin : min post dfe ≤ 1)
    (hls : IsLs (solveWith ls reg lam) (post + pre + 1 + dfe)) (f d : List K) (hf : f.length = post + pre + 1)
    (hd : d.length = dfe)
    (hex : ∀ i < R, eqOutput f d (fun t => signal.getD t 0) (fun t => reference.getD t 0) (dfe + i)
      = reference.getD (dfe + i) 0) :
    ∃ r, equalizationEstimation ls reference signal post pre dfe false reg lam = .ok r ∧
      ∀ i < R, eqOutput r.ffe (r.dfe.getD []) (fun t => signal.getD t 0) (fun t => reference.getD t 0) (dfe + i)
        = reference.getD (dfe + i) 0 := by
  obtain ⟨r, h1, h2, h3, h4⟩ := C58_optimal_partial ls reference signal post pre dfe R reg lam hl hc hR hmin hls
  refine ⟨r, h1, fun i hi => ?_⟩
  have h := h4 f d hf hd
  rw [sum_eq_zero (fun i hi => by rw [hex i (mem_range.1 hi), sub_self]; ring) (s := range R)
    (f := fun i => (eqOutput f d (fun t => signal.getD t 0) (fun t => reference.getD t 0) (dfe + i)
      - reference.getD (dfe + i) 0) ^ 2)] at h
  have h0 := le_antisymm h (sum_nonneg (fun _ _ => sq_nonneg _))
  have := (sum_eq_zero_iff_of_nonneg (fun _ _ => sq_nonneg _)).1 h0 i (mem_range.2 hi)
  exact sub_eq_zero.1 (pow_eq_zero_iff two_ne_zero |>.1 this)

/-- Taps, signal and reference meeting the hypotheses (`post = 1, pre = 0, dfe = 1`, four rows). -/
example : ∀ i < 4, eqOutput (K := ℚ) [0, 1] [1/2] (fun t => [1, -1/2, -3/2, 1/2, 3/2, -1/2].getD t 0)
    (fun t => [1, -1, -1, 1, 1, -1].getD t 0) (1 + i) = [1, -1, -1, 1, 1, -1].getD (1 + i) 0 := by decide +kernel

example : eqMatrix (K := ℚ) [1, -1, -1, 1, 1, -1] [1, -1/2, -3/2, 1/2, 3/2, -1/2] 1 0 1
      = .ok [[-1/2, -3/2, -1], [-3/2, 1/2, 1], [1/2, 3/2, 1], [3/2, -1/2, -1]] ∧
    eqTarget (K := ℚ) [1, -1, -1, 1, 1, -1] [1, -1/2, -3/2, 1/2, 3/2, -1/2] 1 0 1 = [-1, -1, 1, 1] := by
  decide +kernel

/-- **C58** (negation of "for every row" for `post, dfe ≥ 2`). The true taps reproduce all references from the true
samples (seven of them; the function receives the first six), but the last row of the system has a non-zero residual
for them: it contains the reflected sample 5 instead of the sample 7. -/
theorem C58_negative_overflow :
    let s : List ℚ := [1, 2, 4, 3, 5, 1, 7]
    let reference : List ℚ := [4, 3, 5, 1, 7, 0]
    (∀ n ∈ [2, 3, 4], eqOutput [1, 0, 0] [0, 0] (fun t => s.getD t 0) (fun t => reference.getD t 0) n
      = reference.getD n 0) ∧
    eqMatrix reference (s.take 6) 2 0 2 = .ok [[4, 3, 5, -4, -3], [3, 5, 1, -3, -5], [5, 1, 5, -5, -1]] ∧
    eqTarget reference (s.take 6) 2 0 2 = [5, 1, 7] ∧
    [[4, 3, 5, -4, -3], [3, 5, 1, -3, -5], [5, 1, 5, -5, -1]].map (fun row => dotL row [0, 0, 1, 0, 0])
      = ([5, 1, 5] : List ℚ) := by
  decide +kernel

/-- **C58** (negation for "synchronized" signals). `signal` is such that the one-postcursor equalizer
`s[n] - s[n-1]/2` reproduces the synchronized reference, but with `ffe_postcursor=1, ffe_precursor=0` no taps at all
solve the rows: the window of symbol `n` holds the samples `n` and `n+1`, not `n-1`. -/
theorem C58_negative_window :
    let s : List ℚ := [2, 0, 0, 4, 0]
    let reference : List ℚ := [2, -1, 0, 4, -2]
    (∀ n : ℕ, n < 5 → withPast [] s n - 1/2 * withPast [] s (n - 1) = reference.getD n 0) ∧
    eqMatrix reference s 1 0 0 = .ok [[2, 0], [0, 0], [0, 4]] ∧ eqTarget reference s 1 0 0 = [2, -1, 0] ∧
    ∀ x : List ℚ, [[2, 0], [0, 0], [0, 4]].map (fun row => dotL row x) ≠ [2, -1, 0] := by
  refine ⟨by decide +kernel, by decide +kernel, by decide +kernel, fun x h => ?_⟩
  have h2 := congrArg (fun l => l.getD 1 0) h
  revert h2
  rcases x with _ | ⟨a, _ | ⟨b, x⟩⟩ <;> simp [dotL]

/-- **C58.** With `normalize` and at least one DFE tap, FFE and DFE taps are divided by the largest FFE tap, which is
returned as gain: the largest returned FFE tap is one if the gain is positive, and the equalizer output is divided by
the gain. Without DFE taps, `normalize` raises TypeError. -/
theorem C58_normalize (ls : Solver K) (reference signal : List K) (post pre dfe R : ℕ) (reg : Reg) (lam : K)
    (hl : reference.length = signal.length) (hc : dfe + post + pre + 1 ≤ signal.length)
    (hR : R + (max post dfe + pre + 1) = signal.length) (r : EqEst K)
    (hls : ∀ A b, A.length = b.length → ∃ x e, eqSolve ls reg lam A b = .ok (x, e) ∧ x.length = post + pre + 1 + dfe)
    (hr : equalizationEstimation ls reference signal post pre dfe false reg lam = .ok r) :
    (dfe = 0 → equalizationEstimation ls reference signal post pre dfe true reg lam = .error .typeError) ∧
    (0 < dfe → ∃ r', equalizationEstimation ls reference signal post pre dfe true reg lam = .ok r' ∧
      r'.gain ∈ r.ffe ∧ (∀ v ∈ r.ffe, v ≤ r'.gain) ∧ r'.mse = r.mse ∧
      (0 < r'.gain → 1 ∈ r'.ffe ∧ ∀ v ∈ r'.ffe, v ≤ 1) ∧
      ∀ s a n, eqOutput r'.ffe (r'.dfe.getD []) s a n = eqOutput r.ffe (r.dfe.getD []) s a n / r'.gain) := by
  obtain ⟨x, e, hs, hx⟩ := hls ((List.range R).map (eqRow reference signal (post + pre + 1) dfe))
    ((reference.drop dfe).take R) (by simp; omega)
  obtain ⟨h1, h2⟩ := estimation_ok ls reference signal post pre dfe R reg lam hl hc hR x e hx hs
  rw [hr] at h1
  obtain rfl := Except.ok.inj h1
  constructor
  · intro h0
    rw [h2]
    simp only [h0, gt_iff_lt, lt_irrefl, if_false]
  · intro h0
    have hne : (x.take (post + pre + 1)).reverse ≠ [] := by
      intro h
      have := congrArg List.length h
      rw [List.length_reverse, List.length_take, List.length_nil] at this
      omega
    simp only [gt_iff_lt, h0, if_true] at h2 ⊢
    refine ⟨_, h2, maxL_mem _ hne, fun v hv => maxL_le _ v hv, rfl, fun hg => ⟨?_, ?_⟩, fun s a n => ?_⟩
    · rw [List.mem_map]
      exact ⟨_, maxL_mem _ hne, div_self hg.ne'⟩
    · intro v hv
      obtain ⟨w, hw, rfl⟩ := List.mem_map.1 hv
      exact (div_le_one hg).2 (maxL_le _ w hw)
    · exact eqOutput_div _ _ _ s a n

/-- **C58.** The taps of the system (`C58_system`) are those of the equalizer `rx.ffe_dfe`: fed with the samples from
`dfe + post + pre` on, the samples before as FFE memory and the first `dfe` references as DFE memory, and if in each
row the residual of the taps is less than half the distance of the reference symbol to any other level, then the
equalizer with these taps takes the decisions of the reference and its slicer inputs are the outputs of the rows. -/
theorem C58_equalizer (reference signal lv f d : List K) (post pre dfe R : ℕ)
    (hl : reference.length = signal.length) (hc : dfe + post + pre + 1 ≤ signal.length)
    (hR : R + (max post dfe + pre + 1) = signal.length) (hR0 : 0 < R) (hmin : min post dfe ≤ 1) (hd : 0 < dfe)
    (hfl : f.length = post + pre + 1) (hdl : d.length = dfe) (v : K) (phase : ℤ)
    (hmem : ∀ s ∈ reference, s ∈ lv)
    (hres : ∀ i < R, ∀ l ∈ lv, l ≠ reference.getD (dfe + i) 0 →
      2 * |eqOutput f d (fun t => signal.getD t 0) (fun t => reference.getD t 0) (dfe + i)
        - reference.getD (dfe + i) 0| < |l - reference.getD (dfe + i) 0|) :
    ∃ out, ffeDfe ((signal.drop (dfe + post + pre)).take R) f (some d) (some lv) 1 phase
        (some (v :: (signal.drop dfe).take (post + pre))) (some (reference.take dfe).reverse) = .ok out ∧
      out.signal.length = R ∧
      (∀ i < R, out.signal.getD i 0
        = eqOutput f d (fun t => signal.getD t 0) (fun t => reference.getD t 0) (dfe + i)) ∧
      slicer (.vec out.signal) (some lv) = .ok (.vec ((reference.drop dfe).take R)) := by
  set w : List K := (List.range R).map (fun i =>
    eqOutput f d (fun t => signal.getD t 0) (fun t => reference.getD t 0) (dfe + i) - reference.getD (dfe + i) 0)
    with hw
  have hxl : ((signal.drop (dfe + post + pre)).take R).length = R := by simp; omega
  have hal : ((reference.drop dfe).take R).length = R := by simp; omega
  have hwl : w.length = R := by simp [hw]
  have ha : ∀ n < R, ((reference.drop dfe).take R).getD n 0 = reference.getD (dfe + n) 0 := by
    intro n hn; rw [take_getD _ _ _ _ hn, drop_getD]
  have hwn : ∀ n < R, w.getD n 0
      = eqOutput f d (fun t => signal.getD t 0) (fun t => reference.getD t 0) (dfe + n) - reference.getD (dfe + n) 0 := by
    intro n hn; rw [hw, map_range_getD _ _ _ _ hn]
  obtain ⟨out, h1, h2, h3, h4⟩ := C48_equalized ((signal.drop (dfe + post + pre)).take R) f d lv
    ((reference.drop dfe).take R) w phase (by omega) (by omega) (by omega) (by omega) (by omega)
    (some (v :: (signal.drop dfe).take (post + pre))) (some (reference.take dfe).reverse)
    (by intro z hz; cases hz; simp; omega) (by intro z hz; cases hz; simp; omega)
    (by
      intro n hn
      rw [hxl] at hn
      rw [ha n hn]
      exact hmem _ (mem_of_getD 0 _ (by omega)))
    (by
      intro n hn l hlv hne
      rw [hxl] at hn
      rw [ha n hn] at hne ⊢
      rw [hwn n hn]
      exact hres n hn l hlv hne)
    (by
      intro n hn
      rw [hxl] at hn
      rw [ha n hn, hwn n hn]
      have e1 : ∑ i ∈ range f.length, f.getD i 0 * withPast
            (((some (v :: (signal.drop dfe).take (post + pre))).getD []).drop 1).reverse
            ((signal.drop (dfe + post + pre)).take R) (n - i)
          = ∑ i ∈ range f.length, f.getD i 0 * signal.getD (dfe + n + (f.length - 1) - i) 0 := by
        refine sum_congr rfl (fun i hi => ?_)
        rw [mem_range, hfl] at hi
        congr 1
        show withPast ((signal.drop dfe).take (post + pre)).reverse _ _ = _
        by_cases h : i ≤ n
        · rw [show (n : ℤ) - i = ((n - i : ℕ) : ℤ) by omega, withPast_nat, take_getD _ _ _ _ (by omega), drop_getD]
          congr 1; omega
        · rw [show (n : ℤ) - i = -((i - n - 1 : ℕ) : ℤ) - 1 by omega, withPast_neg,
            reverse_getD _ _ _ (by simp; omega), take_getD _ _ _ _ (by simp; omega), drop_getD]
          congr 1
          simp only [List.length_take, List.length_drop]
          omega
      have e2 : ∑ j ∈ range d.length, d.getD j 0 * withPast ((some (reference.take dfe).reverse).getD [])
            ((reference.drop dfe).take R) (n - 1 - j)
          = ∑ j ∈ range d.length, d.getD j 0 * reference.getD (dfe + n - 1 - j) 0 := by
        refine sum_congr rfl (fun j hj => ?_)
        rw [mem_range] at hj
        congr 1
        show withPast (reference.take dfe).reverse _ _ = _
        by_cases h : j + 1 ≤ n
        · rw [show (n : ℤ) - 1 - j = ((n - 1 - j : ℕ) : ℤ) by omega, withPast_nat, take_getD _ _ _ _ (by omega),
            drop_getD]
          congr 1; omega
        · rw [show (n : ℤ) - 1 - j = -((j - n : ℕ) : ℤ) - 1 by omega, withPast_neg,
            reverse_getD _ _ _ (by simp; omega), take_getD _ _ _ _ (by simp; omega)]
          congr 1
          simp only [List.length_take]
          omega
      rw [e1, e2, eqOutput]
      ring)
  refine ⟨out, h1, by rw [h2, hxl], fun i hi => ?_, h4⟩
  rw [h3 i (by omega), ha i hi, hwn i hi]
  ring

/-- **C58** (partial as `C58_optimal_partial`). If some taps reproduce the reference exactly, then the equalizer
`rx.ffe_dfe` run with the taps returned by the estimation reproduces the reference exactly. -/
theorem C58_recovers_partial (ls : Solver K) (reference signal lv : List K) (post pre dfe R : ℕ) (reg : Reg) (lam : K)
    (hl : reference.length = signal.length) (hc : dfe + post + pre + 1 ≤ signal.length)
    (hR : R + (max post dfe + pre + 1) = signal.length) (hR0 : 0 < R) (hmin : min post dfe ≤ 1) (hd : 0 < dfe)
    (hls : IsLs (solveWith ls reg lam) (post + pre + 1 + dfe)) (f d : List K) (hf : f.length = post + pre + 1)
    (hdl : d.length = dfe)
    (hex : ∀ i < R, eqOutput f d (fun t => signal.getD t 0) (fun t => reference.getD t 0) (dfe + i)
      = reference.getD (dfe + i) 0) (v : K) (phase : ℤ) (hmem : ∀ s ∈ reference, s ∈ lv) :
    ∃ r out, equalizationEstimation ls reference signal post pre dfe false reg lam = .ok r ∧
      ffeDfe ((signal.drop (dfe + post + pre)).take R) r.ffe r.dfe (some lv) 1 phase
        (some (v :: (signal.drop dfe).take (post + pre))) (some (reference.take dfe).reverse) = .ok out ∧
      out.signal = (reference.drop dfe).take R := by
  obtain ⟨r, h1, h2, h3, h4⟩ := C58_optimal_partial ls reference signal post pre dfe R reg lam hl hc hR hmin hls
  obtain ⟨r', h1', h5⟩ := C58_exact_partial ls reference signal post pre dfe R reg lam hl hc hR hmin hls f d hf hdl hex
  rw [h1] at h1'
  obtain rfl := Except.ok.inj h1'
  obtain ⟨d', hd'⟩ : ∃ d', r.dfe = some d' := by
    cases e : r.dfe with
    | none => rw [e] at h3; simp at h3; omega
    | some d' => exact ⟨d', rfl⟩
  rw [hd'] at h3 h5
  simp only [Option.getD_some] at h3 h5
  obtain ⟨out, g1, g2, g3, -⟩ := C58_equalizer reference signal lv r.ffe d' post pre dfe R hl hc hR hR0 hmin hd h2 h3 v
    phase hmem (by
      intro i hi l _ hne
      rw [h5 i hi, sub_self, abs_zero, mul_zero]
      exact abs_pos.2 (sub_ne_zero.2 hne))
  refine ⟨r, out, h1, by rw [hd']; exact g1, ?_⟩
  refine ext_getD 0 (by rw [g2]; simp; omega) (fun i hi => ?_)
  rw [g2] at hi
  rw [g3 i hi, h5 i hi, take_getD _ _ _ _ hi, drop_getD]

end Verif
