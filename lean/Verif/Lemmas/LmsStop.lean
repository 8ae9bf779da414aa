import Verif.Model.LmsStop
import Verif.Lemmas.RoundedTrain

/-! Progress of one pass of the FFE training loop. -/

open Finset

namespace Verif
open Spec

/-- the taps after an exact pass -/
theorem ffePass_taps (y d levels t : List ℝ) (mu : ℝ) (ht : 1 ≤ t.length) (htN : t.length ≤ y.length) (hd : d.length = y.length)
    (hlv : levels ≠ []) :
    ∃ t' o, lmsFfePass 0 y d levels mu t = .ok (some (ffeMse y d t), t') ∧ t'.length = t.length ∧ o.length = y.length ∧
      (∀ n : ℕ, n < y.length → o.getD n 0 = ∑ i ∈ range t.length, t.getD i 0 * listSig y ((n : ℤ) - i)) ∧
      ∀ i < t.length, t'.getD i 0 = t.getD i 0 - tapGrad y (List.zipWith (· - ·) o d) i * mu := by
  obtain ⟨l, t', h1, h2, h3, o, out, hb, hout, hup⟩ := lmsFfePass_run y d levels t mu ht htN hd hlv
  subst h2
  refine ⟨t', o, h1, h3, hb.len_o, fun n hn => ?_, fun i hi => ?_⟩
  · rw [← hb.output n (by rw [hb.len_o]; exact hn)]
    unfold equalized
    rw [sum_map, sum_empty, sub_zero]
    exact sum_congr rfl fun i _ => by rw [Nat.castEmbedding_apply, listSig_nat]
  · obtain ⟨g, hg, hgu⟩ := hup i hi
    obtain ⟨out2, e2, g2, -⟩ := ddlmsGrad_grads y o d levels t.length hb.len_o hd hlv htN
    have : out = out2 := Except.ok.inj (hout.symm.trans e2)
    rw [this, g2, getD_map_lt _ 0 none _ (by simpa using hi), List.getD_eq_getElem _ _ (by simpa using hi : i < (List.range t.length).length),
      List.getElem_range, Option.some.injEq] at hg
    rw [hgu, hg]

section
variable {ι τ : Type} (S : Finset ι) (T : Finset τ) (u : ι → τ → ℝ) (r : τ → ℝ) (w : ι → ℝ)

/-- at a minimum the error is orthogonal to every change of the coefficients -/
theorem train_stationary (z v : ι → ℝ) (hmin : ∀ s : ℝ, trainSq S T u r z ≤ trainSq S T u r (fun c => z c + s * v c)) :
    ∑ n ∈ T, trainErr S u r z n * ∑ c ∈ S, v c * u c n = 0 := by
  obtain ⟨b, hb⟩ : ∃ b, b = ∑ n ∈ T, trainErr S u r z n * ∑ c ∈ S, v c * u c n := ⟨_, rfl⟩
  obtain ⟨a, ha⟩ : ∃ a, a = ∑ n ∈ T, (∑ c ∈ S, v c * u c n) ^ 2 := ⟨_, rfl⟩
  have ha0 : 0 ≤ a := ha ▸ sum_nonneg fun _ _ => sq_nonneg _
  have key : ∀ s : ℝ, trainSq S T u r (fun c => z c + s * v c) = trainSq S T u r z + 2 * s * b + s ^ 2 * a := by
    intro s
    unfold trainSq
    rw [ha, hb, mul_sum, mul_sum, ← sum_add_distrib, ← sum_add_distrib]
    refine sum_congr rfl fun n _ => ?_
    have : trainErr S u r (fun c => z c + s * v c) n = trainErr S u r z n + s * ∑ c ∈ S, v c * u c n := by
      unfold trainErr
      simp only [add_mul, sum_add_distrib, mul_assoc, mul_sum]
      ring
    rw [this]
    ring
  rw [← hb]
  have h := hmin (-b / (a + 1))
  rw [key] at h
  have h2 : 2 * (-b / (a + 1)) * b + (-b / (a + 1)) ^ 2 * a = -(b ^ 2 * (a + 2)) / (a + 1) ^ 2 := by
    field_simp
    ring
  have h3 : 0 ≤ -(b ^ 2 * (a + 2)) / (a + 1) ^ 2 := by linarith
  rw [le_div_iff₀ (by positivity), zero_mul] at h3
  have h4 : b ^ 2 = 0 := by nlinarith [sq_nonneg b]
  exact pow_eq_zero_iff two_ne_zero |>.1 h4

/-- the distance from the minimum in terms of the correlations -/
theorem train_excess (hw : ∀ c ∈ S, 0 < w c) (x z : ι → ℝ) (hmin : ∀ y : ι → ℝ, trainSq S T u r z ≤ trainSq S T u r y) :
    (trainSq S T u r x - trainSq S T u r z) ^ 2
      ≤ (∑ c ∈ S, (x c - z c) ^ 2 / w c) * ∑ c ∈ S, w c * trainCorr S T u r x c ^ 2 := by
  have hd : ∀ n, trainErr S u r x n - trainErr S u r z n = ∑ c ∈ S, (x c - z c) * u c n := by
    intro n
    unfold trainErr
    rw [sub_sub_sub_cancel_right, ← sum_sub_distrib]
    exact sum_congr rfl fun c _ => by ring
  have h0 := train_stationary S T u r z (fun c => x c - z c) fun s => hmin _
  have h1 : trainSq S T u r x - trainSq S T u r z = ∑ c ∈ S, (x c - z c) * trainCorr S T u r x c := by
    have e1 : trainSq S T u r x - trainSq S T u r z
        = ∑ n ∈ T, trainErr S u r x n * ∑ c ∈ S, (x c - z c) * u c n + ∑ n ∈ T, trainErr S u r z n * ∑ c ∈ S, (x c - z c) * u c n := by
      unfold trainSq
      rw [← sum_sub_distrib, ← sum_add_distrib]
      refine sum_congr rfl fun n _ => ?_
      rw [← hd n]
      ring
    rw [e1, h0, add_zero]
    unfold trainCorr
    simp_rw [mul_sum]
    rw [sum_comm]
    exact sum_congr rfl fun c _ => sum_congr rfl fun n _ => by ring
  rw [h1]
  refine sum_sq_le_sum_mul_sum_of_sq_le_mul S (fun c hc => ?_) (fun c hc => ?_) fun c hc => le_of_eq ?_
  · exact div_nonneg (sq_nonneg _) (hw c hc).le
  · exact mul_nonneg (hw c hc).le (sq_nonneg _)
  · have := (hw c hc).ne'
    field_simp

end

/-- one pass lowers the loss by at least `lam mu / 2` times its excess over the minimum -/
theorem pass_progress (y d t t' z : List ℝ) (L : ℕ) (mu A lam : ℝ) (hL : 1 ≤ L) (hLN : L ≤ y.length) (hd : d.length = y.length)
    (htl : t.length = L) (htl' : t'.length = L) (hzl : z.length = L)
    (hA : ∀ v ∈ y, |v| ≤ A) (hmu : 0 < mu) (hstep : mu * (L * A ^ 2) ≤ 2) (hlam : 0 < lam)
    (hmin : ∀ s : List ℝ, s.length = L → ffeMse y d z + lam * tapGap L s z ^ 2 ≤ ffeMse y d s) (o : List ℝ) (hol : o.length = y.length)
    (ho : ∀ n : ℕ, n < y.length → o.getD n 0 = ∑ i ∈ range L, t.getD i 0 * listSig y ((n : ℤ) - i))
    (ht' : ∀ i < L, t'.getD i 0 = t.getD i 0 - tapGrad y (List.zipWith (· - ·) o d) i * mu) :
    lam * mu / 2 * (ffeMse y d t - ffeMse y d z) ≤ ffeMse y d t - ffeMse y d t' := by
  obtain ⟨w, hwd⟩ : ∃ w : ℕ → ℝ, w = fun i : ℕ => mu / (2 * ((y.length : ℝ) - i)) := ⟨_, rfl⟩
  have hN : 0 < y.length := by omega
  have hNr : (0 : ℝ) < y.length := by exact_mod_cast hN
  have hy : y ≠ [] := List.length_pos_iff.1 hN
  have hA0 : 0 ≤ A := by
    obtain ⟨v, l, rfl⟩ := List.exists_cons_of_ne_nil hy
    exact (abs_nonneg v).trans (hA v (by simp))
  have hpos : ∀ c ∈ range L, (1 : ℝ) ≤ (y.length : ℝ) - c := by
    intro c hc
    have : c + 1 ≤ y.length := by have := mem_range.1 hc; omega
    have : (c : ℝ) + 1 ≤ y.length := by exact_mod_cast this
    linarith
  have hw : ∀ c ∈ range L, 0 < w c := by
    intro c hc
    have := hpos c hc
    rw [hwd]
    show 0 < mu / (2 * ((y.length : ℝ) - c))
    have : 0 < (y.length : ℝ) - c := by linarith
    positivity
  obtain ⟨u, hud⟩ : ∃ u : ℕ → ℤ → ℝ, u = fun (c : ℕ) (n : ℤ) => listSig y (n - c) := ⟨_, rfl⟩
  have hsupp : ∀ (c : ℕ) (f : ℤ → ℝ), ∑ n ∈ Ico 0 (y.length : ℤ), f n * u c n = ∑ n ∈ Ico (c : ℤ) y.length, f n * u c n := by
    intro c f
    symm
    refine sum_subset (fun n hn => ?_) fun n hn hn' => ?_
    · rw [mem_Ico] at hn ⊢; omega
    · rw [hud]
      show f n * listSig y (n - c) = 0
      unfold listSig
      rw [mem_Ico] at hn hn'
      rw [if_neg (by omega), mul_zero]
  have hLw : ∑ c ∈ range L, w c * ∑ n ∈ Ico 0 (y.length : ℤ), u c n ^ 2 ≤ 1 := by
    calc _ ≤ ∑ c ∈ range L, mu * A ^ 2 / 2 := by
          refine sum_le_sum fun c hc => ?_
          have hc1 := hpos c hc
          have e1 : ∑ n ∈ Ico 0 (y.length : ℤ), u c n ^ 2 = ∑ n ∈ Ico (c : ℤ) y.length, u c n ^ 2 := by
            simp_rw [pow_two]; exact hsupp c (u c)
          have e2 : ∑ n ∈ Ico (c : ℤ) y.length, u c n ^ 2 ≤ ((y.length : ℝ) - c) * A ^ 2 := by
            refine (sum_le_card_nsmul _ _ (A ^ 2) fun n _ => ?_).trans (le_of_eq ?_)
            · rw [← sq_abs, hud]
              exact pow_le_pow_left₀ (abs_nonneg _) (listSig_abs hA0 hA _) 2
            · rw [Int.card_Ico, nsmul_eq_mul]
              have hcl : c ≤ y.length := by have := mem_range.1 hc; omega
              have : ((y.length : ℤ) - c).toNat = y.length - c := by omega
              rw [this, Nat.cast_sub hcl]
          rw [e1]
          refine (mul_le_mul_of_nonneg_left e2 (hw c hc).le).trans (le_of_eq ?_)
          rw [hwd]
          have : (y.length : ℝ) - c ≠ 0 := by linarith
          field_simp
      _ = mu * (L * A ^ 2) / 2 := by rw [sum_const, card_range, nsmul_eq_mul]; ring
      _ ≤ 1 := by linarith
  have hde := train_descent (range L) (Ico 0 (y.length : ℤ)) u (listSig d) w hw hLw (fun c => t.getD c 0) (fun c => t'.getD c 0) (by
      intro c hc
      have hc' := mem_range.1 hc
      have hne : (y.length : ℝ) - c ≠ 0 := by have := hpos c hc; linarith
      show t'.getD c 0 = _
      rw [ht' c hc']
      unfold tapGrad trainCorr
      rw [hsupp c]
      have e : ∑ n ∈ Ico (c : ℤ) y.length, listSig (List.zipWith (· - ·) o d) n * listSig y (n - c)
          = ∑ n ∈ Ico (c : ℤ) y.length, trainErr (range L) u (listSig d) (fun c => t.getD c 0) n * u c n := by
        refine sum_congr rfl fun n hn => ?_
        rw [mem_Ico] at hn
        obtain ⟨m, rfl⟩ := Int.eq_ofNat_of_zero_le (show 0 ≤ n by omega)
        have hm : m < y.length := by omega
        rw [listSig_nat, zipWith_getD _ 0 0 0 _ _ (by omega) (by omega), ho m hm]
        unfold trainErr
        rw [listSig_nat, hud]
      rw [e, hwd]
      field_simp)
  have hmse : ∀ s : List ℝ, s.length = L → trainSq (range L) (Ico 0 (y.length : ℤ)) u (listSig d) (fun c => s.getD c 0)
      = y.length * ffeMse y d s := by
    intro s hsl
    have : Ico 0 (y.length : ℤ) = (range y.length).map Nat.castEmbedding := by
      ext n
      simp only [mem_Ico, mem_map, mem_range, Nat.castEmbedding_apply]
      constructor
      · intro h; exact ⟨n.toNat, by omega, by omega⟩
      · rintro ⟨k, hk, rfl⟩; omega
    unfold trainSq ffeMse
    rw [this, sum_map, mul_div_cancel₀ _ hNr.ne']
    refine sum_congr rfl fun n _ => ?_
    unfold trainErr
    rw [Nat.castEmbedding_apply, listSig_nat, hsl]
    congr 2
    refine sum_congr rfl fun i _ => ?_
    rw [hud]
    show _ * listSig y ((n : ℤ) - i) = _
    rw [listSig_sub]
  have hall : ∀ x : ℕ → ℝ, trainSq (range L) (Ico 0 (y.length : ℤ)) u (listSig d) (fun c => z.getD c 0)
      ≤ trainSq (range L) (Ico 0 (y.length : ℤ)) u (listSig d) x := by
    intro x
    have hx : trainSq (range L) (Ico 0 (y.length : ℤ)) u (listSig d) x
        = trainSq (range L) (Ico 0 (y.length : ℤ)) u (listSig d) (fun c => ((List.range L).map x).getD c 0) := by
      unfold trainSq trainErr
      refine sum_congr rfl fun n _ => ?_
      congr 2
      refine sum_congr rfl fun c hc => ?_
      have hc' := mem_range.1 hc
      show x c * u c n = ((List.range L).map x).getD c 0 * u c n
      rw [getD_map_lt x 0 0 _ (by simpa using hc'), List.getD_eq_getElem _ _ (by simpa using hc' : c < (List.range L).length),
        List.getElem_range]
    rw [hx, hmse z hzl, hmse _ (by simp)]
    refine mul_le_mul_of_nonneg_left ?_ hNr.le
    have := hmin ((List.range L).map x) (by simp)
    have h2 : 0 ≤ lam * tapGap L ((List.range L).map x) z ^ 2 := by positivity
    linarith
  have hex := train_excess (range L) (Ico 0 (y.length : ℤ)) u (listSig d) w hw (fun c => t.getD c 0) (fun c => z.getD c 0) hall
  rw [hmse t htl, hmse z hzl] at hex
  rw [hmse t htl, hmse t' htl'] at hde
  have hG0 : 0 ≤ ∑ c ∈ range L, w c * trainCorr (range L) (Ico 0 (y.length : ℤ)) u (listSig d) (fun c => t.getD c 0) c ^ 2 :=
    sum_nonneg fun c hc => mul_nonneg (hw c hc).le (sq_nonneg _)
  generalize ∑ c ∈ range L, w c * trainCorr (range L) (Ico 0 (y.length : ℤ)) u (listSig d) (fun c => t.getD c 0) c ^ 2 = G at hde hex hG0
  have hm := hmin t htl
  have hV : ∑ c ∈ range L, (t.getD c 0 - z.getD c 0) ^ 2 / w c ≤ 2 * y.length / mu * tapGap L t z ^ 2 := by
    unfold tapGap
    rw [Real.sq_sqrt (sum_nonneg fun _ _ => sq_nonneg _), mul_sum]
    refine sum_le_sum fun c hc => ?_
    rw [hwd]
    show _ / (mu / (2 * ((y.length : ℝ) - c))) ≤ _
    rw [div_div_eq_mul_div, div_mul_eq_mul_div, div_le_div_iff_of_pos_right hmu, mul_comm]
    refine mul_le_mul_of_nonneg_right ?_ (sq_nonneg _)
    have : (0 : ℝ) ≤ c := Nat.cast_nonneg c
    linarith
  generalize ∑ c ∈ range L, (t.getD c 0 - z.getD c 0) ^ 2 / w c = V at hV hex
  generalize ffeMse y d t = ft at *
  generalize ffeMse y d z = fz at *
  generalize ffeMse y d t' = ft' at *
  have hg2 : 0 ≤ tapGap L t z ^ 2 := sq_nonneg _
  generalize tapGap L t z ^ 2 = g2 at hV hm hg2
  have hx0 : 0 ≤ ft - fz := by nlinarith [mul_nonneg hlam.le hg2]
  generalize (y.length : ℝ) = n at *
  -- (n x)^2 ≤ V G ≤ 2 n / mu * g2 * G, lam g2 ≤ x
  have h1 : (n * ft - n * fz) ^ 2 ≤ 2 * n / mu * g2 * G := hex.trans (mul_le_mul_of_nonneg_right hV hG0)
  have h2 : lam * mu / 2 * (n * ft - n * fz) ^ 2 ≤ n * (ft - fz) * G := by
    have e : lam * mu / 2 * (2 * n / mu * g2 * G) = n * (lam * g2) * G := by field_simp
    calc _ ≤ lam * mu / 2 * (2 * n / mu * g2 * G) := mul_le_mul_of_nonneg_left h1 (by positivity)
      _ = n * (lam * g2) * G := e
      _ ≤ n * (ft - fz) * G := by gcongr; linarith
  rcases hx0.eq_or_lt with h0 | h0
  · rw [← h0, mul_zero]
    have : n * ft' ≤ n * ft := by linarith
    have := le_of_mul_le_mul_left this hNr
    linarith
  · have h3 : lam * mu / 2 * (n * (ft - fz)) ≤ G := by
      have hp : 0 < n * (ft - fz) := mul_pos hNr h0
      refine le_of_mul_le_mul_right ?_ hp
      calc lam * mu / 2 * (n * (ft - fz)) * (n * (ft - fz)) = lam * mu / 2 * (n * ft - n * fz) ^ 2 := by ring
        _ ≤ n * (ft - fz) * G := h2
        _ = G * (n * (ft - fz)) := by ring
    refine le_of_mul_le_mul_left ?_ hNr
    linarith

end Verif
