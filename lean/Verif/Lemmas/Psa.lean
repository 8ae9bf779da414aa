import Mathlib.Data.List.GetD
import Verif.Model.Psa
import Verif.Spec.Psa
import Mathlib.Tactic.Ring
import Mathlib.Tactic.Linarith
import Mathlib.Tactic.FieldSimp
import Mathlib.Tactic.Positivity
import Mathlib.Algebra.BigOperators.Group.List.Lemmas
import Mathlib.Algebra.BigOperators.Ring.List
import Mathlib.Algebra.Field.GeomSum
import Mathlib.RingTheory.RootsOfUnity.Complex

/-! Helper lemmas on `welch` and `psa`. -/

namespace Verif

theorem welchSegments_map (f : ℂ → ℂ) (x : List ℂ) (a b : ℕ) :
    welchSegments (x.map f) a b = (welchSegments x a b).map (fun s => s.map f) := by
  simp [welchSegments, List.map_map, Function.comp_def, List.map_take, List.map_drop]

theorem sum_map_mulc (c : ℂ) (s : List ℂ) : (s.map (fun v => v * c)).sum = s.sum * c := by
  induction s with
  | nil => simp
  | cons a t ih => simp [ih, add_mul]

theorem detrend_map_mul (c : ℂ) (s : List ℂ) :
    detrend (s.map (fun v => v * c)) = (detrend s).map (fun v => v * c) := by
  simp only [detrend, sum_map_mulc, List.map_map, List.length_map]
  refine List.map_congr_left (fun v _ => ?_)
  simp only [Function.comp]
  ring

theorem sum_map_addc (c : ℂ) (s : List ℂ) : (s.map (fun v => v + c)).sum = s.sum + s.length * c := by
  induction s with
  | nil => simp
  | cons a t ih => simp [ih, add_mul]; ring

theorem detrend_map_add (c : ℂ) (s : List ℂ) : detrend (s.map (fun v => v + c)) = detrend s := by
  simp only [detrend, sum_map_addc, List.map_map, List.length_map]
  refine List.map_congr_left (fun v hv => ?_)
  have h : (s.length : ℂ) ≠ 0 := by
    have := List.length_pos_of_mem hv
    exact_mod_cast Nat.pos_iff_ne_zero.mp this
  simp only [Function.comp]
  field_simp
  ring

theorem getD_mapc (c : ℂ) (s : List ℂ) (j : ℕ) : (s.map (fun v => v * c)).getD j 0 = s.getD j 0 * c := by
  by_cases h : j < s.length
  · simp [List.getD_eq_getElem?_getD, List.getElem?_map, List.getElem?_eq_getElem h]
  · have h' : s.length ≤ j := Nat.le_of_not_lt h
    simp [List.getD_eq_getElem?_getD, List.getElem?_eq_none h']

theorem dftAt_map_mul (c : ℂ) (nfft k : ℕ) (win s : List ℂ) :
    dftAt nfft k win (s.map (fun v => v * c)) = dftAt nfft k win s * c := by
  simp only [dftAt, List.length_map]
  rw [← sum_map_mulc, List.map_map]
  congr 1
  refine List.map_congr_left (fun j _ => ?_)
  simp only [Function.comp, getD_mapc]
  ring

theorem sum_map_mulr (c : ℝ) {α : Type} (l : List α) (f : α → ℝ) :
    (l.map (fun v => f v * c)).sum = (l.map f).sum * c := by
  induction l with
  | nil => simp
  | cons a t ih => simp [ih, add_mul]

theorem welchBin_map_mul (c : ℂ) (x win : List ℂ) (nfft o : ℕ) (b : Bool) (k : ℕ) :
    welchBin (x.map (fun v => v * c)) win nfft o b k = Complex.normSq c * welchBin x win nfft o b k := by
  simp only [welchBin, welchSegments_map, List.map_map, List.length_map, Function.comp_def, detrend_map_mul,
    dftAt_map_mul, map_mul]
  rw [sum_map_mulr]
  ring

theorem welchBin_map_add (c : ℂ) (x win : List ℂ) (nfft o : ℕ) (b : Bool) (k : ℕ) :
    welchBin (x.map (fun v => v + c)) win nfft o b k = welchBin x win nfft o b k := by
  simp only [welchBin, welchSegments_map, List.map_map, List.length_map, Function.comp_def, detrend_map_add]

theorem welchBin_nonneg (x win : List ℂ) (nfft o : ℕ) (b : Bool) (k : ℕ) : 0 ≤ welchBin x win nfft o b k := by
  unfold welchBin
  refine mul_nonneg (div_nonneg (div_nonneg ?_ (Complex.normSq_nonneg _)) (Nat.cast_nonneg _)) ?_
  · refine List.sum_nonneg ?_
    intro v hv
    obtain ⟨s, -, rfl⟩ := List.mem_map.mp hv
    exact Complex.normSq_nonneg _
  · split <;> norm_num

theorem psaNfft_bounds (w osr : ℕ) (hw : 0 < w) (ho : 0 < osr) :
    w * osr ≤ psaNfft w osr ∧ psaNfft w osr < 2 * (w * osr) ∧ ∃ e, psaNfft w osr = 2 ^ e := by
  have h : 0 < w * osr := Nat.mul_pos hw ho
  have hd : psaNfft w osr = 2 ^ Nat.clog 2 (w * osr) := by
    unfold psaNfft; rw [if_neg (Nat.pos_iff_ne_zero.mp h)]
  refine ⟨?_, ?_, _, hd⟩
  · rw [hd]; exact Nat.le_pow_clog (by norm_num) _
  · rw [hd]
    by_cases h1 : w * osr = 1
    · rw [h1]; simp
    · have h2 : 1 < w * osr := by omega
      have := Nat.pow_pred_clog_lt_self (b := 2) (by norm_num) h2
      have hc : 0 < Nat.clog 2 (w * osr) := Nat.clog_pos (by norm_num) h2
      have he : Nat.clog 2 (w * osr) = (Nat.clog 2 (w * osr)).pred + 1 := (Nat.succ_pred_eq_of_pos hc).symm
      rw [he, pow_succ]; omega

theorem psaOverlap_lt (w : ℕ) (ov : ℝ) (hw : 0 < w) (h0 : 0 ≤ ov) (h1 : ov < 1) : psaOverlap w ov < w := by
  unfold psaOverlap
  have hw' : (0 : ℝ) < w := by exact_mod_cast hw
  rw [Nat.floor_lt (by positivity)]
  nlinarith

theorem psaWindowN_pos (fs rbw : ℝ) (hf : 0 < fs) (hr : 0 < rbw) : 0 < psaWindowN fs rbw := by
  have h : 0 < ⌈fs / rbw⌉ := Int.ceil_pos.mpr (div_pos hf hr)
  unfold psaWindowN
  omega

/-- the window length for the default resolution bandwidth -/
theorem psaWindowN_default (n : ℕ) (fs : ℝ) (hf : 0 < fs) (hn : 0 < n) :
    psaWindowN fs (max (fs / 1000) (2 * fs / n / 10)) = 19 * min 1000 (5 * n) / 10 := by
  have hn' : (0 : ℝ) < n := by exact_mod_cast hn
  have key : fs / max (fs / 1000) (2 * fs / n / 10) = ((min 1000 (5 * n) : ℕ) : ℝ) := by
    rcases le_total 1000 (5 * n) with h | h
    · have h' : (1000 : ℝ) ≤ 5 * n := by exact_mod_cast h
      rw [min_eq_left h, max_eq_left]
      · push_cast; field_simp
      · rw [div_div, div_le_div_iff₀ (by positivity) (by norm_num)]; nlinarith
    · have h' : (5 * n : ℝ) ≤ 1000 := by exact_mod_cast h
      rw [min_eq_right h, max_eq_right]
      · push_cast; field_simp; norm_num
      · rw [div_div, div_le_div_iff₀ (by norm_num) (by positivity)]; nlinarith
  unfold psaWindowN
  rw [key, Int.ceil_natCast, Int.toNat_natCast]

/-- a spectrum with every value multiplied by `c` -/
def scaleSpectrum (c : ℝ) (w : List ℝ × List ℝ) : List ℝ × List ℝ := (w.1, w.2.map (c * ·))

theorem welch_map_mul (c : ℂ) (x win : List ℂ) (nfft : ℕ) (fs : ℝ) (o : ℕ) (cplx : Bool) :
    welch (x.map (fun v => v * c)) win nfft fs o cplx
      = (welch x win nfft fs o cplx).map (scaleSpectrum (Complex.normSq c)) := by
  unfold welch
  simp only [List.length_map]
  split
  · rfl
  · split
    · rfl
    · split
      · rfl
      · split
        · rfl
        · simp only [Except.map, scaleSpectrum, List.map_map]
          congr 2
          refine List.map_congr_left (fun k _ => ?_)
          exact welchBin_map_mul c x win nfft o _ k

theorem welch_map_add (c : ℂ) (x win : List ℂ) (nfft : ℕ) (fs : ℝ) (o : ℕ) (cplx : Bool) :
    welch (x.map (fun v => v + c)) win nfft fs o cplx = welch x win nfft fs o cplx := by
  have h : welchBin (x.map (fun v => v + c)) win nfft o (!cplx) = welchBin x win nfft o (!cplx) := by
    funext k; exact welchBin_map_add c x win nfft o _ k
  unfold welch
  simp only [List.length_map, h]

/-- `psa` written with its normalisation factor -/
theorem psa_of_norm (window : ℕ → List ℝ) (x : List ℂ) (cplx : Bool) (fs : ℝ) (rbw : Option ℝ) (mode : String)
    (obw : Option ℝ) (r : ℝ) (osr : ℕ) (ov fsc : ℝ) (dsb : Bool) (b : ℝ) (hb : psaRbw x.length fs rbw = .ok b) (g : ℝ)
    (hg : psaNorm (if obw.isSome then "dBc" else mode) x b (psaEffFs x fs dsb) r fsc obw = .ok (some g)) :
    psa window x cplx fs rbw mode obw r osr ov fsc dsb
      = (welch x ((window (psaWindowN fs b)).map (fun (v : ℝ) => (v : ℂ))) (psaNfft (psaWindowN fs b) osr) fs
          (psaOverlap (psaWindowN fs b) ov) cplx).map (fun w => some (scaleSpectrum (g ^ 2) w)) := by
  have h2 : Complex.normSq (g : ℂ) = g ^ 2 := by rw [Complex.normSq_ofReal]; ring
  unfold psa
  rw [hb]
  show (psaNorm _ _ _ _ _ _ _ >>= _) = _
  rw [hg]
  show (welch _ _ _ _ _ _ >>= _) = _
  simp only [Option.getD_some]
  rw [welch_map_mul, h2]
  cases welch x ((window (psaWindowN fs b)).map (fun (v : ℝ) => (v : ℂ))) (psaNfft (psaWindowN fs b) osr) fs
          (psaOverlap (psaWindowN fs b) ov) cplx <;> rfl

theorem scaleSpectrum_one (w : List ℝ × List ℝ) : scaleSpectrum 1 w = w := by
  simp [scaleSpectrum]

theorem psaNorm_dB (x : List ℂ) (b e r fsc : ℝ) : psaNorm "dB" x b e r fsc none = .ok (some 1) := by
  rw [psaNorm, if_neg (by decide), if_neg (by decide), if_neg (by decide), if_neg (by decide),
      if_neg (by decide), if_neg (by decide), if_pos rfl]

theorem map_some_scale (c : ℝ) (w : Py (List ℝ × List ℝ)) :
    w.map (fun w => some (scaleSpectrum c w))
      = (w.map (fun w => some (scaleSpectrum (1 ^ 2) w))).map (Option.map (scaleSpectrum c)) := by
  cases w with
  | error e => rfl
  | ok v => simp [Except.map, scaleSpectrum_one]

/-! ### complex tones -/

/-- the samples of a complex tone: amplitude `A`, `k / n` periods per sample, `l` samples from sample `t` on -/
noncomputable def toneFrom (A : ℂ) (k n t l : ℕ) : List ℂ :=
  (List.range l).map (fun j => A * Complex.exp (2 * Real.pi * Complex.I * ((t + j : ℕ) : ℂ) * (k : ℂ) / (n : ℂ)))

theorem toneFrom_seg (A : ℂ) (k n L a w : ℕ) (h : a + w ≤ L) :
    ((toneFrom A k n 0 L).drop a).take w = toneFrom A k n a w := by
  unfold toneFrom
  apply List.ext_getElem
  · simp; omega
  · intro i h1 h2
    simp

theorem sum_toneFrom (A : ℂ) (k n t w : ℕ) (hn : 0 < n) (hd : n ∣ k * w) (hk : ¬ n ∣ k) :
    (toneFrom A k n t w).sum = 0 := by
  have hn' : (n : ℂ) ≠ 0 := by exact_mod_cast hn.ne'
  set z : ℂ := Complex.exp (2 * Real.pi * Complex.I * ((k : ℂ) / n)) with hz
  have hzne : z ≠ 1 := by
    intro h1
    rw [hz, Complex.exp_eq_one_iff] at h1
    obtain ⟨m, hm⟩ := h1
    have h2 : (2 * Real.pi * Complex.I : ℂ) ≠ 0 := Complex.two_pi_I_ne_zero
    have h3 : (k : ℂ) / n = m := by
      apply mul_left_cancel₀ h2
      rw [hm]; ring
    rw [div_eq_iff hn'] at h3
    have h4 : (k : ℤ) = m * n := by exact_mod_cast h3
    apply hk
    have : (n : ℤ) ∣ (k : ℤ) := ⟨m, by rw [h4]; ring⟩
    exact_mod_cast this
  have hzw : z ^ w = 1 := by
    obtain ⟨q, hq⟩ := hd
    rw [hz, ← Complex.exp_nat_mul, Complex.exp_eq_one_iff]
    refine ⟨q, ?_⟩
    have : (k : ℂ) * w = n * q := by exact_mod_cast hq
    have h5 : (w : ℂ) * (2 * Real.pi * Complex.I * ((k : ℂ) / n)) = (k * w : ℂ) / n * (2 * Real.pi * Complex.I) := by
      field_simp
    rw [h5, this]
    field_simp
    push_cast
    rfl
  have hform : toneFrom A k n t w = (List.range w).map (fun j => (A * z ^ t) * z ^ j) := by
    unfold toneFrom
    refine List.map_congr_left (fun j _ => ?_)
    rw [mul_assoc A (z ^ t), ← pow_add, hz, ← Complex.exp_nat_mul]
    congr 2
    push_cast
    ring
  have hgeom : ∀ m : ℕ, ((List.range m).map (fun j => (A * z ^ t) * z ^ j)).sum * (z - 1) = (A * z ^ t) * (z ^ m - 1) := by
    intro m
    induction m with
    | zero => simp
    | succ m ih =>
      rw [List.range_succ, List.map_append, List.sum_append, add_mul, ih]
      simp only [List.map_cons, List.map_nil, List.sum_cons, List.sum_nil, add_zero, pow_succ]
      ring
  have := hgeom w
  rw [hzw, sub_self, mul_zero, mul_eq_zero] at this
  rw [hform]
  rcases this with h | h
  · exact h
  · exact absurd (sub_eq_zero.mp h) hzne

theorem detrend_zero_sum (s : List ℂ) (h : s.sum = 0) : detrend s = s := by
  simp [detrend, h]

theorem sum_range_getD (l : List ℂ) : ((List.range l.length).map (fun j => l.getD j 0)).sum = l.sum := by
  congr 1
  apply List.ext_getElem
  · simp
  · intro i h1 h2
    simp [List.getElem?_eq_getElem h2]

theorem dftAt_tone (A : ℂ) (k n t : ℕ) (win : List ℂ) (hn : 0 < n) :
    Complex.normSq (dftAt n k win (toneFrom A k n t win.length)) = Complex.normSq A * Complex.normSq win.sum := by
  have hn' : (n : ℂ) ≠ 0 := by exact_mod_cast hn.ne'
  set ph : ℂ := Complex.exp (2 * Real.pi * Complex.I * (t : ℂ) * (k : ℂ) / (n : ℂ)) with hph
  have hlen : (toneFrom A k n t win.length).length = win.length := by simp [toneFrom]
  have h1 : dftAt n k win (toneFrom A k n t win.length) = win.sum * (A * ph) := by
    unfold dftAt
    rw [hlen, ← sum_range_getD win, ← sum_map_mulc, List.map_map]
    congr 1
    refine List.map_congr_left (fun j hj => ?_)
    have hj' : j < win.length := List.mem_range.mp hj
    have hg : (toneFrom A k n t win.length).getD j 0
        = A * Complex.exp (2 * Real.pi * Complex.I * ((t + j : ℕ) : ℂ) * (k : ℂ) / (n : ℂ)) := by
      unfold toneFrom
      simp [List.getD_eq_getElem?_getD, hj']
    rw [hg]
    simp only [Function.comp]
    have hexp : Complex.exp (2 * Real.pi * Complex.I * ((t + j : ℕ) : ℂ) * (k : ℂ) / (n : ℂ))
        * Complex.exp (-(2 * Real.pi * Complex.I * (j : ℂ) * (k : ℂ) / (n : ℂ))) = ph := by
      rw [← Complex.exp_add, hph]
      congr 1
      push_cast
      ring
    rw [mul_assoc, mul_assoc A, hexp]
  have h2 : Complex.normSq ph = 1 := by
    have : ph = Complex.exp ((2 * Real.pi * (t : ℝ) * (k : ℝ) / (n : ℝ) : ℝ) * Complex.I) := by
      rw [hph]; congr 1; push_cast; ring
    rw [Complex.normSq_eq_norm_sq, this, Complex.norm_exp_ofReal_mul_I, one_pow]
  rw [h1, map_mul, map_mul, h2, mul_one, mul_comm]

/-- a complex tone with a whole number of periods per window shows its power in its own bin -/
theorem welchBin_tone (A : ℂ) (k n L o : ℕ) (win : List ℂ) (hn : 0 < n) (hd : n ∣ k * win.length) (hk : ¬ n ∣ k)
    (ho : o < win.length) (hL : win.length ≤ L) (hs : win.sum ≠ 0) :
    welchBin (toneFrom A k n 0 L) win n o false k = Complex.normSq A := by
  have hlen : (toneFrom A k n 0 L).length = L := by simp [toneFrom]
  set S := (L - o) / (win.length - o) with hS
  have hS1 : 1 ≤ S := by
    rw [hS]; exact (Nat.one_le_div_iff (by omega)).mpr (by omega)
  have hseg : welchSegments (toneFrom A k n 0 L) win.length o
      = (List.range S).map (fun s => toneFrom A k n (s * (win.length - o)) win.length) := by
    unfold welchSegments
    rw [hlen]
    refine List.map_congr_left (fun s hs => ?_)
    have hs' : s < S := List.mem_range.mp hs
    apply toneFrom_seg
    have h1 : (s + 1) * (win.length - o) ≤ S * (win.length - o) := Nat.mul_le_mul_right _ hs'
    have h2 : S * (win.length - o) ≤ L - o := Nat.div_mul_le_self _ _
    rw [add_mul, one_mul] at h1
    omega
  unfold welchBin
  rw [hseg]
  simp only [List.map_map, Function.comp_def, List.length_map, List.length_range]
  have hval : ∀ s : ℕ, Complex.normSq (dftAt n k win (detrend (toneFrom A k n (s * (win.length - o)) win.length)))
      = Complex.normSq A * Complex.normSq win.sum := by
    intro s
    rw [detrend_zero_sum _ (sum_toneFrom A k n _ _ hn hd hk), dftAt_tone A k n _ win hn]
  simp only [hval, List.map_const', List.sum_replicate, List.length_range, nsmul_eq_mul]
  have hS' : (S : ℝ) ≠ 0 := by exact_mod_cast (by omega : S ≠ 0)
  have hw' : Complex.normSq win.sum ≠ 0 := by
    rw [Ne, Complex.normSq_eq_zero]; exact hs
  simp only [Bool.false_eq_true, false_and, if_false, mul_one]
  field_simp

theorem psaNorm_ok (mode : String) (hm : mode ∈ supportedModes) (x : List ℂ) (rbw e r fsc : ℝ) (obw : Option ℝ)
    (hr : r ≠ 0) : ∃ v, psaNorm mode x rbw e r fsc obw = .ok v := by
  simp only [supportedModes, List.mem_cons, List.not_mem_nil, or_false] at hm
  rcases hm with rfl | rfl | rfl | rfl | rfl | rfl | rfl
  · exact ⟨_, by rw [psaNorm, if_pos rfl, if_neg hr]⟩
  · exact ⟨_, by rw [psaNorm, if_neg (by decide), if_pos rfl, if_neg hr]⟩
  · exact ⟨_, by rw [psaNorm, if_neg (by decide), if_neg (by decide), if_pos rfl]⟩
  · exact ⟨_, by rw [psaNorm, if_neg (by decide), if_neg (by decide), if_neg (by decide), if_pos rfl]⟩
  · rw [psaNorm, if_neg (by decide), if_neg (by decide), if_neg (by decide), if_neg (by decide), if_pos rfl]
    split <;> exact ⟨_, rfl⟩
  · rw [psaNorm, if_neg (by decide), if_neg (by decide), if_neg (by decide), if_neg (by decide), if_neg (by decide),
      if_pos rfl]
    split <;> exact ⟨_, rfl⟩
  · exact ⟨_, by rw [psaNorm, if_neg (by decide), if_neg (by decide), if_neg (by decide), if_neg (by decide),
      if_neg (by decide), if_neg (by decide), if_pos rfl]⟩

theorem psaNorm_factor (mode : String) (hm : mode ∈ supportedModes) (x : List ℂ) (b e r fsc : ℝ) (hb : 0 < b)
    (he : 0 < e) (hr : 0 < r) (hf : fsc ≠ 0) (hms : meanSquare x ≠ 0) :
    ∃ g, psaNorm mode x b e r fsc none = .ok (some g) ∧ g ^ 2 = powerFactor mode (meanSquare x) b e r fsc := by
  have hms' : 0 ≤ meanSquare x := by
    unfold meanSquare
    refine div_nonneg (List.sum_nonneg ?_) (Nat.cast_nonneg _)
    intro v hv
    obtain ⟨s, -, rfl⟩ := List.mem_map.mp hv
    exact Complex.normSq_nonneg _
  simp only [supportedModes, List.mem_cons, List.not_mem_nil, or_false] at hm
  rcases hm with rfl | rfl | rfl | rfl | rfl | rfl | rfl
  · refine ⟨Real.sqrt (1000 / r) * Real.sqrt (b / e), by rw [psaNorm, if_pos rfl, if_neg hr.ne'], ?_⟩
    rw [powerFactor, if_pos rfl, mul_pow, Real.sq_sqrt (by positivity), Real.sq_sqrt (by positivity)]; ring
  · refine ⟨Real.sqrt (1000 / r / e), by rw [psaNorm, if_neg (by decide), if_pos rfl, if_neg hr.ne'], ?_⟩
    rw [powerFactor, if_neg (by decide), if_pos rfl, Real.sq_sqrt (by positivity)]
  · refine ⟨Real.sqrt (b / e) * 1000000,
      by rw [psaNorm, if_neg (by decide), if_neg (by decide), if_pos rfl], ?_⟩
    rw [powerFactor, if_neg (by decide), if_neg (by decide), if_pos rfl, mul_pow, Real.sq_sqrt (by positivity)]
    ring
  · refine ⟨Real.sqrt (1 / e) * 1000000,
      by rw [psaNorm, if_neg (by decide), if_neg (by decide), if_neg (by decide), if_pos rfl], ?_⟩
    rw [powerFactor, if_neg (by decide), if_neg (by decide), if_neg (by decide), if_pos rfl, mul_pow,
      Real.sq_sqrt (by positivity)]
    ring
  · refine ⟨Real.sqrt (b / e) / Real.sqrt (meanSquare x), by
      rw [psaNorm, if_neg (by decide), if_neg (by decide), if_neg (by decide), if_neg (by decide), if_pos rfl,
        if_neg hms]
      rfl, ?_⟩
    rw [powerFactor, if_neg (by decide), if_neg (by decide), if_neg (by decide), if_neg (by decide), if_pos rfl,
      div_pow, Real.sq_sqrt (by positivity), Real.sq_sqrt hms']
  · refine ⟨Real.sqrt (b / e) / fsc, by
      rw [psaNorm, if_neg (by decide), if_neg (by decide), if_neg (by decide), if_neg (by decide),
        if_neg (by decide), if_pos rfl, if_neg hf]
      rfl, ?_⟩
    rw [powerFactor, if_neg (by decide), if_neg (by decide), if_neg (by decide), if_neg (by decide),
      if_neg (by decide), if_pos rfl, div_pow, Real.sq_sqrt (by positivity)]
  · refine ⟨1, psaNorm_dB x b e r fsc, ?_⟩
    rw [powerFactor, if_neg (by decide), if_neg (by decide), if_neg (by decide), if_neg (by decide),
      if_neg (by decide), if_neg (by decide), one_pow]

theorem meanSquare_scale (c : ℂ) (x : List ℂ) :
    meanSquare (x.map (fun v => v * c)) = meanSquare x * Complex.normSq c := by
  simp only [meanSquare, List.map_map, Function.comp_def, map_mul, List.length_map]
  rw [sum_map_mulr]
  ring

theorem allReal_scale (c : ℝ) (hc : c ≠ 0) (x : List ℂ) : allReal (x.map (fun v => v * (c : ℂ))) = allReal x := by
  unfold allReal
  congr 1
  simp only [List.mem_map, forall_exists_index, and_imp, forall_apply_eq_imp_iff₂, Complex.mul_im, Complex.ofReal_re,
    Complex.ofReal_im, mul_zero, zero_add, mul_eq_zero, hc, or_false]

theorem pow2_between_unique (m a b : ℕ) (ha : m ≤ 2 ^ a) (ha' : 2 ^ a < 2 * m) (hb : m ≤ 2 ^ b) (hb' : 2 ^ b < 2 * m) :
    a = b := by
  rcases Nat.lt_trichotomy a b with h | h | h
  · have : 2 ^ (a + 1) ≤ 2 ^ b := Nat.pow_le_pow_right (by norm_num) h
    rw [pow_succ] at this; omega
  · exact h
  · have : 2 ^ (b + 1) ≤ 2 ^ a := Nat.pow_le_pow_right (by norm_num) h
    rw [pow_succ] at this; omega

/-- entry `nfft - k` of the transform of a real segment with a real window is the conjugate of entry `k` -/
theorem dftAt_conj (nfft k : ℕ) (hk : k ≤ nfft) (hn : 0 < nfft) (win s : List ℂ) (hw : ∀ j, (win.getD j 0).im = 0)
    (hs : ∀ j, (s.getD j 0).im = 0) :
    dftAt nfft (nfft - k) win s = (starRingEnd ℂ) (dftAt nfft k win s) := by
  unfold dftAt
  rw [map_list_sum, List.map_map]
  congr 1
  refine List.map_congr_left (fun j _ => ?_)
  simp only [Function.comp_apply, map_mul]
  rw [Complex.conj_eq_iff_im.2 (hw j), Complex.conj_eq_iff_im.2 (hs j), ← Complex.exp_conj]
  congr 1
  have hn' : (nfft : ℂ) ≠ 0 := by exact_mod_cast hn.ne'
  have e : -(2 * (Real.pi : ℂ) * Complex.I * (j : ℂ) * ((nfft - k : ℕ) : ℂ) / (nfft : ℂ))
      = (starRingEnd ℂ) (-(2 * (Real.pi : ℂ) * Complex.I * (j : ℂ) * (k : ℂ) / (nfft : ℂ))) + ((-(j : ℤ) : ℤ) : ℂ) * (2 * Real.pi * Complex.I) := by
    rw [Nat.cast_sub hk]
    simp only [map_neg, map_div₀, map_mul, Complex.conj_ofReal, Complex.conj_I, Complex.conj_natCast, map_ofNat]
    push_cast
    field_simp
    ring
  rw [e, Complex.exp_periodic.int_mul]

theorem real_list (f : List ℂ) (h : ∀ v ∈ f, v.im = 0) (j : ℕ) : (f.getD j 0).im = 0 := by
  by_cases hj : j < f.length
  · rw [List.getD_eq_getElem _ _ hj]; exact h _ (List.getElem_mem hj)
  · rw [List.getD_eq_default _ _ (Nat.le_of_not_lt hj)]; rfl

theorem detrend_real (s : List ℂ) (h : ∀ v ∈ s, v.im = 0) : ∀ v ∈ detrend s, v.im = 0 := by
  have hsum : s.sum.im = 0 := by
    clear * - h
    induction s with
    | nil => rfl
    | cons a t ih =>
      rw [List.sum_cons, Complex.add_im, h a (by simp), ih (fun v hv => h v (by simp [hv])), add_zero]
  intro v hv
  obtain ⟨u, hu, rfl⟩ := List.mem_map.1 hv
  rw [Complex.sub_im, h u hu, Complex.div_natCast_im, hsum]
  simp

/-- the one-sided spectrum of real samples folds the two-sided one -/
theorem welchBin_fold (x win : List ℂ) (hx : ∀ v ∈ x, v.im = 0) (hw : ∀ v ∈ win, v.im = 0) (nfft o k : ℕ)
    (hk : 2 * k ≤ nfft) (hn : 0 < nfft) :
    welchBin x win nfft o true k = welchBin x win nfft o false k
      + (if 0 < k ∧ 2 * k < nfft then welchBin x win nfft o false (nfft - k) else 0) := by
  have hseg : ∀ s ∈ welchSegments x win.length o, Complex.normSq (dftAt nfft (nfft - k) win (detrend s))
      = Complex.normSq (dftAt nfft k win (detrend s)) := by
    intro s hs
    have hsr : ∀ v ∈ s, v.im = 0 := by
      unfold welchSegments at hs
      obtain ⟨i, -, rfl⟩ := List.mem_map.1 hs
      exact fun v hv => hx v (List.mem_of_mem_drop (List.mem_of_mem_take hv))
    rw [dftAt_conj nfft k (by omega) hn win _ (real_list win hw) (real_list _ (detrend_real s hsr)), Complex.normSq_conj]
  unfold welchBin
  simp only [Bool.false_eq_true, false_and, if_false, true_and, mul_one]
  by_cases h : 0 < k ∧ 2 * k < nfft
  · rw [if_pos h, if_pos h, List.map_congr_left hseg]
    ring
  · rw [if_neg h, if_neg h]
    ring

end Verif
