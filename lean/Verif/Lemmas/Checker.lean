import Verif.Lemmas.Lock
import Verif.Lemmas.PrbsPeriod
import Verif.Spec.Checker
import Verif.Spec.Prbs

/-! Lemmas for the pattern lock and the PRBS checkers. -/

namespace Verif
open Spec Gf2

theorem mismatches_triangle {α : Type*} [DecidableEq α] (n : ℕ) (f g h : ℕ → α) :
    mismatches n f h ≤ mismatches n f g + mismatches n g h := by
  unfold mismatches
  refine le_trans (Finset.card_le_card (t := (Finset.range n).filter (fun i => f i ≠ g i) ∪
    (Finset.range n).filter (fun i => g i ≠ h i)) ?_) (Finset.card_union_le _ _)
  intro i hi
  simp only [Finset.mem_filter, Finset.mem_union, Finset.mem_range] at hi ⊢
  by_cases hfg : f i = g i
  · right; exact ⟨hi.1, hfg ▸ hi.2⟩
  · left; exact ⟨hi.1, hfg⟩

theorem mismatches_comm {α : Type*} [DecidableEq α] (n : ℕ) (f g : ℕ → α) :
    mismatches n f g = mismatches n g f := by
  unfold mismatches; congr 1; apply Finset.filter_congr; intro i _; exact ne_comm

theorem mismatches_congr {α : Type*} [DecidableEq α] {n : ℕ} {f g f' g' : ℕ → α}
    (hf : ∀ i < n, f i = f' i) (hg : ∀ i < n, g i = g' i) :
    mismatches n f g = mismatches n f' g' := by
  unfold mismatches; congr 1; apply Finset.filter_congr
  intro i hi; rw [hf i (by simpa using hi), hg i (by simpa using hi)]

theorem mismatches_eq_zero {α : Type*} [DecidableEq α] {n : ℕ} {f g : ℕ → α} :
    mismatches n f g = 0 ↔ ∀ i < n, f i = g i := by
  unfold mismatches
  rw [Finset.card_eq_zero, Finset.filter_eq_empty_iff]
  simp

theorem match_count {α : Type*} [DecidableEq α] (n : ℕ) (f g : ℕ → α) :
    ((Finset.range n).filter (fun i => f i = g i)).card + mismatches n f g = n := by
  unfold mismatches
  have := Finset.card_filter_add_card_filter_not (s := Finset.range n) (fun i => f i = g i)
  simpa using this

/-- correlation of NRZ mapped binary sequences counts mismatches -/
theorem nrz_sum (n : ℕ) (f g : ℕ → Int) (hf : ∀ i < n, f i = 0 ∨ f i = 1)
    (hg : ∀ i < n, g i = 0 ∨ g i = 1) :
    ∑ i ∈ Finset.range n, (f i * 2 - 1) * (g i * 2 - 1) = n - 2 * (mismatches n f g : ℕ) := by
  unfold mismatches
  induction n with
  | zero => simp
  | succ n ih =>
    rw [Finset.sum_range_succ, ih (fun i hi => hf i (by omega)) (fun i hi => hg i (by omega)),
      Finset.range_add_one, Finset.filter_insert]
    rcases hf n (by omega) with h1 | h1 <;> rcases hg n (by omega) with h2 | h2 <;>
      simp [h1, h2] <;> ring

theorem stream_map {f : Int → Int} (l : List Int) (i : Nat) (hi : i < l.length) :
    (l.map f).getD i 0 = f (stream l i) := by
  simp [stream, hi]

theorem stream_rotate (p : List Int) (s i : Nat) (hi : i < p.length) :
    stream (p.rotate s) i = stream p ((s + i) % p.length) := by
  apply getD_eq_of_getElem?
  rw [List.getElem?_rotate hi, Nat.add_comm]

theorem mem_of_stream (l : List Int) (h : ∀ x ∈ l, x = 0 ∨ x = 1) (i : Nat) (hi : i < l.length) :
    stream l i = 0 ∨ stream l i = 1 := by
  have : stream l i = l[i] := by simp [stream, hi]
  rw [this]; exact h _ (List.getElem_mem _)

/-- the binary lock returns the rotation with the fewest mismatches -/
theorem lockBinary_spec (p sig : List Int) (hp : p ≠ []) (hs : sig ≠ [])
    (hpb : ∀ x ∈ p, x = 0 ∨ x = 1) (hsb : ∀ x ∈ sig, x = 0 ∨ x = 1) :
    ∃ s xc, s < p.length ∧ lockPatternBinary p sig = .ok (p.rotate s, xc) ∧
      ∀ k, mismatches (min p.length sig.length) (stream (p.rotate s)) (stream sig)
        ≤ mismatches (min p.length sig.length) (stream (p.rotate k)) (stream sig) := by
  have hp0 : 0 < p.length := List.length_pos_iff.2 hp
  have hs0 : 0 < sig.length := List.length_pos_iff.2 hs
  unfold lockPatternBinary
  rw [if_neg (by omega)]
  simp only [tile_map]
  set v := (sig.take (min p.length sig.length)).map (fun x => x * 2 - 1) with hv
  have hvl : v.length = min p.length sig.length := by simp [hv]
  have hpl : (p.map (fun x => x * 2 - 1)).length = p.length := by simp
  obtain ⟨h1, h2⟩ := lock_core (p.map (fun x => x * 2 - 1)) v (by omega) (by omega)
  rw [hpl] at h1
  refine ⟨_, correlateValid (tile (p.map (fun x => x * 2 - 1)) 2) v, h1, ?_, fun k => ?_⟩
  · rw [tile_slice _ _ h1]
  · have key : ∀ k, corr (p.map (fun x => x * 2 - 1)) v k = (min p.length sig.length : ℕ)
        - 2 * (mismatches (min p.length sig.length) (stream (p.rotate k)) (stream sig) : ℕ) := by
      intro k
      unfold corr
      rw [hvl, ← nrz_sum]
      · apply Finset.sum_congr rfl
        intro i hi
        rw [Finset.mem_range] at hi
        rw [hpl, stream_map p _ (Nat.mod_lt _ hp0), stream_rotate _ _ _ (by omega), hv,
          stream_map _ _ (by simp; omega)]
        congr 2
        unfold stream
        rw [getD_eq_of_getElem? (j := i) (m := sig)]
        rw [List.getElem?_take, if_pos (by omega)]
      · intro i hi
        rw [stream_rotate _ _ _ (by omega)]
        exact mem_of_stream _ hpb _ (Nat.mod_lt _ hp0)
      · intro i hi; exact mem_of_stream _ hsb _ (by omega)
    have := h2 k
    rw [key, key] at this
    omega

/-! ### comparison -/

theorem count_true_map_range (f : Nat → Bool) (n : Nat) :
    ((List.range n).map f).count true = ((Finset.range n).filter (fun i => f i = true)).card :=
  count_map_range f true n

theorem zipWith_ne_eq (a b : List Int) (h : a.length = b.length) :
    List.zipWith (fun a b => decide (a ≠ b)) a b
      = (List.range a.length).map (fun i => decide (stream a i ≠ stream b i)) := by
  apply List.ext_getElem?
  intro i
  rw [map_range_getElem?]
  by_cases hi : i < a.length
  · rw [if_pos hi, List.getElem?_zipWith]
    have hb : i < b.length := by omega
    simp [stream, hi, hb]
  · rw [if_neg hi, List.getElem?_eq_none (by simp; omega)]

theorem exactReport_of (data ref : List Int) (h : data.length = ref.length) (th : Int)
    (err : List Bool) (herr : err = List.zipWith (fun a b => decide (a ≠ b)) data ref)
    (f : ℕ → Int) (hf : ∀ i < data.length, stream ref i = f i) :
    ExactReport data f th (decide ((err.count true : Int) ≥ th)) (data.length - err.count true) err := by
  have hc : err.count true = mismatches data.length (stream data) f := by
    rw [herr, zipWith_ne_eq _ _ h, count_true_map_range]
    unfold mismatches
    congr 1
    apply Finset.filter_congr
    intro i hi
    rw [hf i (by simpa using hi)]
    simp
  refine ⟨?_, ?_, ?_, ?_⟩
  · rw [herr]; simp [h]
  · intro i hi
    rw [herr, zipWith_ne_eq _ _ h, map_range_getElem?, if_pos hi, hf i hi]
  · have := match_count data.length (stream data) f
    rw [hc]; omega
  · rw [hc, decide_eq_true_eq]

theorem compareBits_spec (data ref : List Int) (h : data.length = ref.length) (th : Int)
    (f : ℕ → Int) (hf : ∀ i < data.length, stream ref i = f i) :
    ∃ r, compareBits data ref th = .ok r ∧
      ExactReport data f th r.lostLock r.correctBitCount r.errorBit := by
  unfold compareBits
  rw [if_neg (by simpa using h)]
  exact ⟨_, rfl, exactReport_of data ref h th _ rfl f hf⟩

theorem tile_ceil_take (seq : List Int) (D P : Nat) (hP : 0 < P) (hs : P ≤ seq.length) :
    ((tile seq ((D + P - 1) / P)).take D).length = D ∧
    ∀ i < D, stream ((tile seq ((D + P - 1) / P)).take D) i = stream seq (i % seq.length) := by
  have hle : D ≤ (D + P - 1) / P * seq.length := by
    have h1 : D ≤ (D + P - 1) / P * P := by
      have := Nat.lt_div_mul_add (a := D + P - 1) hP
      omega
    exact h1.trans (Nat.mul_le_mul_left _ hs)
  constructor
  · rw [List.length_take, tile_length]; omega
  · intro i hi
    apply getD_eq_of_getElem?
    rw [List.getElem?_take, if_pos hi, tile_getElem? _ _ _ (by omega)]

/-! ### PRBS phases -/

theorem bitAt_phase_ne (p : PrbsEnum) (seed : List Int) (hseed : seed.length = p.value)
    (hne : ∃ x ∈ seed, x % 2 = 1) (a b : Nat) (hab : a % (2 ^ p.value - 1) ≠ b % (2 ^ p.value - 1)) :
    mismatches (2 ^ p.value - 1) (fun i => bitAt (getPolynomial p) seed (a + i))
      (fun i => bitAt (getPolynomial p) seed (b + i)) = 2 ^ (p.value - 1) := by
  wlog hle : a ≤ b with H
  · rw [mismatches_comm]; exact H p seed hseed hne b a (Ne.symm hab) (by omega)
  · have := bitAt_shift_distance p seed hseed hne (b - a) ?_ a
    · rw [← this]
      unfold mismatches
      congr 1
      apply Finset.filter_congr
      intro i _
      rw [show a + (b - a) + i = b + i by omega]
    · intro hd
      apply hab
      exact (Nat.modEq_iff_dvd' hle).2 hd

/-- every non-zero seed is a phase of the all-ones stream -/
theorem exists_phase (p : PrbsEnum) (seed : List Int) (hseed : seed.length = p.value)
    (hne : ∃ x ∈ seed, x % 2 = 1) :
    ∃ φ, ∀ t, bitAt (getPolynomial p) seed t
      = bitAt (getPolynomial p) (List.replicate p.value 1) (φ + t) := by
  have hv := value_pos p
  have hl := poly_length p
  have hol : (List.replicate p.value (1:Int)).length = p.value := by simp
  have hone : ∃ x ∈ List.replicate p.value (1:Int), x % 2 = 1 :=
    ⟨1, by simp; omega, rfl⟩
  have hclt : code seed < 2 ^ p.value := by rw [← hseed]; exact code_lt _
  have h1lt : code (List.replicate p.value (1:Int)) < 2 ^ p.value := by
    have := code_lt (List.replicate p.value (1:Int)); rwa [hol] at this
  obtain ⟨himg, -⟩ := orbit_full hv h1lt (code_ne_zero hone)
    (supported_maximal p h1lt (code_ne_zero hone))
  have : code seed ∈ (Finset.range (2 ^ p.value - 1)).image
      (fun t => (step p.value (code (getPolynomial p)))^[t] (code (List.replicate p.value (1:Int)))) := by
    rw [himg, Finset.mem_Ico]
    exact ⟨Nat.pos_of_ne_zero (code_ne_zero hne), hclt⟩
  simp only [Finset.mem_image, Finset.mem_range] at this
  obtain ⟨φ, -, hφ⟩ := this
  refine ⟨φ, fun t => ?_⟩
  rw [bitAt_eq_code _ _ (by omega) (by omega), bitAt_eq_code _ _ (by omega) (by omega), hol, hseed,
    ← hφ, ← Function.iterate_add_apply, show t + 1 + φ = φ + t + 1 by omega]

/-! ### economy checker -/

/-- the reference of one economy iteration -/
theorem econStep_spec (p : PrbsEnum) (data : List Int) (th : Int) (s : Nat) :
    ∃ r, econStep p data th s = .ok r ∧
      r.correctBitCount = data.length - r.errorBit.count true ∧
      ∃ c, ExactReport (data.drop s) (fun i => if i < p.value then stream data (s + i) else
          bitAt (getPolynomial p) ((data.drop s).take p.value).reverse (i - p.value)) th
          r.lostLock c r.errorBit := by
  have hpl := poly_length p
  have hv := value_pos p
  unfold econStep
  obtain ⟨seq, sd, hg, hlen, hbit⟩ : ∃ seq sd, prbsGenerator (getPolynomial p)
      ((data.drop s).take p.value).reverse ((data.length : Int) - s - p.value) = .ok (seq, sd) ∧
      seq.length = data.length - s - p.value ∧ ∀ i < data.length - s - p.value,
        stream seq i = bitAt (getPolynomial p) ((data.drop s).take p.value).reverse i := by
    by_cases hlong : s + p.value ≤ data.length
    · have hsl : ((data.drop s).take p.value).reverse.length = p.value := by simp; omega
      have hcast : (data.length : Int) - s - p.value = ((data.length - s - p.value : ℕ) : Int) := by
        omega
      rw [hcast, prbsGenerator_supported p _ hsl]
      refine ⟨_, _, rfl, by simp, fun i hi => ?_⟩
      simp [stream, hi]
    · unfold prbsGenerator
      rw [if_neg (by omega), if_neg (by omega)]
      refine ⟨_, _, rfl, ?_, ?_⟩
      · rw [List.length_take]; omega
      · intro i hi; omega
  simp only [hg, bind, Except.bind]
  have hll : (data.drop s).length = ((data.drop s).take p.value ++ seq).length := by
    simp [hlen]; omega
  rw [if_neg (by simpa using hll)]
  refine ⟨_, rfl, rfl, _, exactReport_of _ _ hll th _ rfl _ ?_⟩
  intro i hi
  rw [List.length_drop] at hi
  have hgD : ∀ i, stream ((data.drop s).take p.value ++ seq) i = if i < p.value ∧ i < data.length - s
      then stream data (s + i) else stream seq (i - min p.value (data.length - s)) := by
    intro i
    unfold stream
    by_cases h : i < p.value ∧ i < data.length - s
    · rw [if_pos h]
      apply getD_eq_of_getElem?
      rw [List.getElem?_append_left (by simp; omega), List.getElem?_take, if_pos h.1,
        List.getElem?_drop]
    · rw [if_neg h]
      apply getD_eq_of_getElem?
      rw [List.getElem?_append_right (by simp; omega)]
      simp
  rw [hgD]
  by_cases h : i < p.value
  · rw [if_pos ⟨h, by omega⟩, if_pos h]
  · rw [if_neg (by omega), if_neg h, hbit _ (by omega)]
    congr 1; omega

theorem econLoop_spec (p : PrbsEnum) (data : List Int) (th : Int) (k s : Nat) (o : Option CheckResult)
    (hk : 0 < k) : ∃ r s', econLoop p data th k s o = .ok r ∧ s ≤ s' ∧ s' < s + k ∧
      econStep p data th s' = .ok r ∧ (r.lostLock = true → s' = s + k - 1) := by
  induction k generalizing s o with
  | zero => omega
  | succ k ih =>
    obtain ⟨r, hr, -⟩ := econStep_spec p data th s
    simp only [econLoop, hr, bind, Except.bind]
    by_cases hl : r.lostLock = true
    · rw [if_pos hl]
      rcases Nat.eq_zero_or_pos k with rfl | hk0
      · exact ⟨r, s, rfl, le_rfl, by omega, hr, fun _ => by omega⟩
      · obtain ⟨r', s', h1, h2, h3, h4, h5⟩ := ih (s + 1) (some r) hk0
        exact ⟨r', s', h1, by omega, by omega, h4, fun h => by have := h5 h; omega⟩
    · rw [if_neg hl]
      exact ⟨r, s, rfl, le_rfl, by omega, hr, fun h => absurd h hl⟩

theorem econ_first (p : PrbsEnum) (data : List Int) (th : Int) (r : CheckResult)
    (h : econStep p data th 0 = .ok r) (hl : r.lostLock = false) :
    prbsCheckerEconomy p data th = .ok r := by
  unfold prbsCheckerEconomy
  obtain ⟨k, hk⟩ : ∃ k, p.value = k + 1 := ⟨p.value - 1, by have := value_pos p; omega⟩
  rw [hk]
  simp only [econLoop, h, bind, Except.bind, hl]
  rfl

/-- a window of `n` stream bits, reversed, is the register -/
theorem window_reg (poly seed w : List Int) (φ : Nat) (hn : 0 < seed.length) (hw : w.length = seed.length)
    (h : ∀ i < seed.length, stream w i = bitAt poly seed (φ + i)) :
    w.reverse = reg poly seed (φ + seed.length) := by
  apply code_inj
  · rw [List.length_reverse, hw, reg_length _ _ _ hn]
  · intro i hi
    rw [List.length_reverse, hw] at hi
    rw [reg_getD _ _ _ _ hi, if_pos (by omega)]
    have h1 := h (seed.length - 1 - i) (by omega)
    rw [show φ + seed.length - 1 - i = φ + (seed.length - 1 - i) by omega, ← h1]
    apply getD_eq_of_getElem?
    rw [List.getElem?_reverse (by omega), hw]

end Verif
