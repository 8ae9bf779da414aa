import Verif.Lemmas.Symbol
import Verif.Lemmas.Gray
import Mathlib.Tactic.IntervalCases

/-!
# Bit/symbol conversion and Gray coding (C12 - C16)

`m = 2^b` is the number of symbols. The options that make `symbol2bin` fail on a single multi-bit
symbol are the "matrix" options (bit order, MSB, LSB inversion).
-/

namespace Verif
open Spec

/-- at least one option that indexes the bit matrix is on -/
def SymFlags.matrixOp (f : SymFlags) : Bool := f.bitOrderInv || f.invMsb || f.invLsb

theorem symbol2bin_multi (sy : List Int) (b : Nat) (hb : 2 ≤ b) (f : SymFlags)
    (h : sy.length ≠ 1 ∨ f.matrixOp = false) :
    symbol2bin sy (2 ^ b) f = .ok ((sy.map (fun s => rxRow f (symBits b s))).flatten) := by
  have hpos : 2 ^ b ≠ 0 := by positivity
  unfold symbol2bin
  simp only [hpos, if_false, Nat.log2_two_pow, gt_iff_lt, show 1 < b from hb, if_true]
  by_cases h1 : sy.length = 1
  · have hf : f.matrixOp = false := h.resolve_left (by simpa using h1)
    simp only [SymFlags.matrixOp, Bool.or_eq_false_iff] at hf
    simp [h1, hf, rxRow]
  · simp [h1]

theorem symbol2bin_two (sy : List Int) (f : SymFlags) :
    symbol2bin sy 2 f = .ok ((sy.map (fun s => if f.pnInv then (symBits 1 s).map (fun x => 1 - x)
      else symBits 1 s)).flatten) := by
  unfold symbol2bin
  simp only [show (2:Nat).log2 = 1 from rfl]
  simp

/-- **C12** (partial: excludes exactly the inputs on which `symbol2bin` raises, see
`C12_negative_single_symbol`). For every alphabet size `2^b`, flags and bit vector,
`symbol2bin(bin2symbol(bits))` returns the bits without the trailing incomplete symbol. -/
theorem C12_bits_roundtrip_partial (bits : List Int) (hbin : IsBinary bits) (b : ℕ) (hb : 1 ≤ b)
    (f : SymFlags) (hsafe : b = 1 ∨ bits.length / b ≠ 1 ∨ f.matrixOp = false) :
    (do let s ← bin2symbol bits (2 ^ b) f; symbol2bin s (2 ^ b) f)
      = .ok (bits.take (bits.length - bits.length % b)) := by
  rcases Nat.lt_or_ge 1 b with hb2 | hb1
  · have hb0 : 0 < b := by omega
    rw [bin2symbol_multi bits b hb2 f]
    simp only [bind, Except.bind]
    have hmod := take_mod_length bits b
    set tb := bits.take (bits.length - bits.length % b) with htb
    have htl : tb.length = bits.length - bits.length % b := by
      rw [htb, List.length_take]; omega
    rw [symbol2bin_multi _ b hb2 f, List.map_map]
    · congr 1
      rw [show (rows b tb).map ((fun s => rxRow f (symBits b s)) ∘ fun r => leVal (txRow f r))
          = (rows b tb).map id from ?_, List.map_id, flatten_rows b hb0 _ hmod]
      apply List.map_congr_left
      intro r hr
      have hrl := mem_rows_length b tb r hr
      have hrb : IsBinary r := fun x hx => hbin x (List.mem_of_mem_take (mem_rows_mem b tb r hr x hx))
      have h1 : symBits b (leVal (txRow f r)) = txRow f r := by
        have := symBits_leVal (txRow f r) (binary_txRow f hrb)
        rwa [txRow_length, hrl] at this
      simp only [Function.comp, h1, rx_tx, id]
    · rcases hsafe with h | h | h
      · omega
      · left
        rw [List.length_map, rows_length, htl]
        have : (bits.length - bits.length % b) / b = bits.length / b := by
          have := Nat.div_add_mod bits.length b
          rw [show bits.length - bits.length % b = b * (bits.length / b) by omega,
            Nat.mul_div_cancel_left _ hb0]
        rwa [this]
      · right; exact h
  · have : b = 1 := by omega
    subst this
    simp only [pow_one, bin2symbol_two, bind, Except.bind, symbol2bin_two, Nat.mod_one, Nat.sub_zero,
      List.take_length]
    congr 1
    cases f.pnInv
    · simp only [Bool.false_eq_true, if_false]
      exact map_symBits_one bits hbin
    · simp only [if_true, List.map_map]
      conv_rhs => rw [← map_symBits_one bits hbin]
      congr 1
      apply List.map_congr_left
      intro x hx
      rcases hbin x hx with rfl | rfl <;> rfl

/-- **C12** *violated* for a single multi-bit symbol with any matrix option: `symbol2bin` raises,
for every alphabet size `2^b ≥ 4` and every bit vector holding exactly one symbol. -/
theorem C12_negative_single_symbol (bits : List Int) (b : ℕ) (hb : 2 ≤ b) (f : SymFlags)
    (hf : f.matrixOp = true) (hlen : bits.length / b = 1) :
    ∃ e, (do let s ← bin2symbol bits (2 ^ b) f; symbol2bin s (2 ^ b) f) = .error e := by
  have hb0 : 0 < b := by omega
  rw [bin2symbol_multi bits b hb f]
  simp only [bind, Except.bind]
  have hl : ((rows b (bits.take (bits.length - bits.length % b))).map
      (fun r => leVal (txRow f r))).length = 1 := by
    rw [List.length_map, rows_length, List.length_take, Nat.min_eq_left (by omega)]
    have := Nat.div_add_mod bits.length b
    rw [show bits.length - bits.length % b = b * (bits.length / b) by omega,
      Nat.mul_div_cancel_left _ hb0, hlen]
  have hpos : 2 ^ b ≠ 0 := by positivity
  unfold symbol2bin
  simp only [hpos, if_false, Nat.log2_two_pow, gt_iff_lt, show 1 < b from hb, if_true, hl]
  simp only [SymFlags.matrixOp, Bool.or_eq_true] at hf
  by_cases h2 : f.invMsb = true
  · simp [h2]
  · by_cases h3 : f.invLsb = true
    · simp [h2, h3]
    · have h1 : f.bitOrderInv = true := by tauto
      simp [h1, h2, h3]

example : (do let s ← bin2symbol [1, 0, 0, 1, 1] 4 ⟨true, true, false, true⟩
              symbol2bin s 4 ⟨true, true, false, true⟩) = .ok [1, 0, 0, 1] := by decide

/-- **C13** (partial: same exclusion as C12). For symbols in `[0, 2^b)`, converting to bits and back
returns the symbols. -/
theorem C13_symbols_roundtrip_partial (sy : List Int) (b : ℕ) (hb : 1 ≤ b)
    (hs : ∀ s ∈ sy, 0 ≤ s ∧ s < 2 ^ b) (f : SymFlags)
    (hsafe : b = 1 ∨ sy.length ≠ 1 ∨ f.matrixOp = false) :
    (do let bits ← symbol2bin sy (2 ^ b) f; bin2symbol bits (2 ^ b) f) = .ok sy := by
  rcases Nat.lt_or_ge 1 b with hb2 | hb1
  · have hb0 : 0 < b := by omega
    rw [symbol2bin_multi sy b hb2 f (by rcases hsafe with h | h | h; · omega
                                        · exact Or.inl h
                                        · exact Or.inr h)]
    simp only [bind, Except.bind, bin2symbol_multi _ b hb2 f]
    congr 1
    have hrows : ∀ r ∈ sy.map (fun s => rxRow f (symBits b s)), r.length = b := by
      intro r hr
      rw [List.mem_map] at hr
      obtain ⟨s, -, rfl⟩ := hr
      rw [rxRow_length, symBits_length]
    have hmod : (sy.map (fun s => rxRow f (symBits b s))).flatten.length % b = 0 := by
      rw [List.length_flatten]
      have : (sy.map (fun s => rxRow f (symBits b s))).map List.length = List.replicate sy.length b := by
        rw [List.eq_replicate_iff]
        refine ⟨by simp, fun x hx => ?_⟩
        rw [List.mem_map] at hx
        obtain ⟨r, hr, rfl⟩ := hx
        exact hrows r hr
      rw [this]; simp
    rw [hmod, Nat.sub_zero, List.take_length, rows_flatten b hb0 _ hrows, List.map_map]
    conv_rhs => rw [← List.map_id sy]
    apply List.map_congr_left
    intro s hs'
    simp only [Function.comp, tx_rx, id]
    exact leVal_symBits b s (hs s hs').1 (hs s hs').2
  · have : b = 1 := by omega
    subst this
    simp only [pow_one, bin2symbol_two, bind, Except.bind, symbol2bin_two]
    have hbin : IsBinary sy := fun x hx => by have := hs x hx; simp at this; omega
    congr 1
    cases f.pnInv
    · simp only [Bool.false_eq_true, if_false]
      exact map_symBits_one sy hbin
    · simp only [if_true, List.map_flatten, List.map_map]
      conv_rhs => rw [← map_symBits_one sy hbin]
      congr 1
      apply List.map_congr_left
      intro x hx
      rcases hbin x hx with rfl | rfl <;> rfl

/-- **C13** *violated* for a single symbol with a matrix option. -/
theorem C13_negative_single_symbol (s : Int) (b : ℕ) (hb : 2 ≤ b) (f : SymFlags)
    (hf : f.matrixOp = true) : ∃ e, symbol2bin [s] (2 ^ b) f = .error e := by
  have hpos : 2 ^ b ≠ 0 := by positivity
  unfold symbol2bin
  simp only [hpos, if_false, Nat.log2_two_pow, gt_iff_lt, show 1 < b from hb, if_true,
    List.length_singleton]
  simp only [SymFlags.matrixOp, Bool.or_eq_true] at hf
  by_cases h2 : f.invMsb = true
  · simp [h2]
  · by_cases h3 : f.invLsb = true
    · simp [h2, h3]
    · have h1 : f.bitOrderInv = true := by tauto
      simp [h1, h2, h3]

example : (do let s ← symbol2bin [5, 0, 7] 8 ⟨true, false, true, true⟩
              bin2symbol s 8 ⟨true, false, true, true⟩) = .ok [5, 0, 7] := by decide

/-- **C14.** Number and range of the symbols, for every alphabet size `2^b`, flags, binary data. -/
theorem C14_symbol_range (bits : List Int) (hbin : IsBinary bits) (b : ℕ) (hb : 1 ≤ b)
    (f : SymFlags) :
    ∃ sy, bin2symbol bits (2 ^ b) f = .ok sy ∧ sy.length = bits.length / b ∧
      ∀ s ∈ sy, 0 ≤ s ∧ s < 2 ^ b := by
  rcases Nat.lt_or_ge 1 b with hb2 | hb1
  · refine ⟨_, bin2symbol_multi bits b hb2 f, ?_, ?_⟩
    · have hb0 : 0 < b := by omega
      rw [List.length_map, rows_length, List.length_take, Nat.min_eq_left (by omega)]
      have := Nat.div_add_mod bits.length b
      rw [show bits.length - bits.length % b = b * (bits.length / b) by omega,
        Nat.mul_div_cancel_left _ hb0]
    · intro s hs
      rw [List.mem_map] at hs
      obtain ⟨r, hr, rfl⟩ := hs
      have hrb : IsBinary r := fun x hx =>
        hbin x (List.mem_of_mem_take (mem_rows_mem b _ r hr x hx))
      have := leVal_range _ (binary_txRow f hrb)
      rwa [txRow_length, mem_rows_length b _ r hr] at this
  · have : b = 1 := by omega
    subst this
    refine ⟨_, by rw [pow_one]; exact bin2symbol_two bits f, ?_, ?_⟩
    · cases f.pnInv <;> simp
    · intro s hs
      have : s = 0 ∨ s = 1 := by
        revert hs
        cases f.pnInv
        · exact fun hs => hbin s (by simpa using hs)
        · exact fun hs => binary_neg hbin s (by simpa using hs)
      rcases this with rfl | rfl <;> norm_num

/-- **C14.** Without flags the `i`-th symbol is the little-endian value of bits `b*i .. b*i+b-1`. -/
theorem C14_symbol_value (bits : List Int) (b : ℕ) (hb : 1 ≤ b) :
    ∃ sy, bin2symbol bits (2 ^ b) {} = .ok sy ∧
      ∀ i < bits.length / b, sy[i]? = some (leVal ((bits.drop (i * b)).take b)) := by
  rcases Nat.lt_or_ge 1 b with hb2 | hb1
  · have hb0 : 0 < b := by omega
    refine ⟨_, bin2symbol_multi bits b hb2 {}, fun i hi => ?_⟩
    have hd := Nat.div_add_mod bits.length b
    have hT : (bits.take (bits.length - bits.length % b)).length = bits.length / b * b := by
      rw [List.length_take, Nat.min_eq_left (by omega), Nat.mul_comm]; omega
    simp only [rows, List.map_map]
    rw [map_range_getElem?, if_pos (by rw [hT, Nat.mul_div_cancel _ hb0]; exact hi)]
    simp only [Function.comp, txRow, Bool.false_eq_true, if_false]
    congr 2
    have h1 : (i + 1) * b ≤ bits.length / b * b := Nat.mul_le_mul_right _ hi
    rw [Nat.succ_mul] at h1
    have hle : i * b + b ≤ bits.length - bits.length % b := by
      rw [List.length_take, Nat.min_eq_left (by omega)] at hT; omega
    apply List.ext_getElem?
    intro j
    rw [List.getElem?_take, List.getElem?_take, List.getElem?_drop, List.getElem?_drop]
    by_cases hj : j < b
    · rw [if_pos hj, if_pos hj, List.getElem?_take, if_pos (by omega)]
    · rw [if_neg hj, if_neg hj]
  · have : b = 1 := by omega
    subst this
    refine ⟨_, by rw [pow_one]; exact bin2symbol_two bits {}, fun i hi => ?_⟩
    rw [Nat.div_one] at hi
    simp only [Bool.false_eq_true, if_false, Nat.mul_one]
    rw [List.getElem?_eq_getElem hi, List.drop_eq_getElem_cons hi, List.take_succ_cons,
      List.take_zero]
    simp only [leVal, mul_zero, add_zero]

/-- **C14**, rejection (partial: for `m ≤ 16384`; the tolerance of `np.isclose` accepts larger counts such
as 16385, `C14_negative_tolerance`). A symbol count that is not `2^b` with `b ≥ 1` raises ValueError, except
`m = 0` on non-empty data which raises OverflowError. -/
theorem C14_rejects_partial (bits : List Int) (m : ℕ) (_hm : m ≤ 16384)
    (hnot : ∀ b, 1 ≤ b → m ≠ 2 ^ b) (f : SymFlags) :
    bin2symbol bits m f = .error (if m = 0 ∧ bits ≠ [] then .overflow else .valueError) := by
  unfold bin2symbol
  by_cases h0 : m = 0
  · subst h0
    by_cases hb : bits = []
    · subst hb; rfl
    · have : bits.length > 0 := List.length_pos_iff.2 hb
      simp [this, hb]
  · have hc : ¬ (m = 0 ∧ bits ≠ []) := fun h => h0 h.1
    rw [if_neg (by omega), if_neg hc]
    by_cases h1 : m = 1
    · subst h1; rfl
    · rw [pow2Exp_none]
      intro b he
      rcases Nat.eq_zero_or_pos b with rfl | hb
      · exact h1 he
      · exact hnot b hb he

example : bin2symbol [1, 0, 1] 3 {} = .error .valueError := by decide
example : bin2symbol [1, 1, 0, 0, 1, 1, 1] 8 {} = .ok [3, 6] := by decide

/-- **C15.** For every level count `m ≥ 1` the Gray vector has `m` distinct entries starting at 0,
neighbours differ in exactly one bit; if `m = 2^b` it is a permutation of `0..m-1` and (for
`b ≥ 1`) last and first entry differ in one bit too. -/
theorem C15_gray_vector (m : ℕ) (hm : 1 ≤ m) :
    ∃ v, getGrayLevelVec m = .ok v ∧ v.length = m ∧ v.Nodup ∧ v[0]? = some 0 ∧
      (∀ i a c, v[i]? = some a → v[i + 1]? = some c → OneBitApart a c) ∧
      (∀ b, m = 2 ^ b → v.Perm (List.range m) ∧
        (1 ≤ b → ∃ l, v[m - 1]? = some l ∧ OneBitApart l 0)) := by
  refine ⟨_, getGray_eq m hm, ?_, ?_, ?_, ?_, ?_⟩
  · rw [List.length_take, G_length, Nat.min_eq_left (le_two_pow_ceilLog2 m)]
  · exact (List.take_sublist _ _).nodup (G_nodup _)
  · rw [List.getElem?_take, if_pos (show 0 < m from hm), ← List.head?_eq_getElem?, G_head]
  · intro i a c ha hc
    have hch := (G_chain (ceilLog2 m - 1)).take m
    rw [List.isChain_iff_getElem] at hch
    have hi : i + 1 < ((G (ceilLog2 m - 1)).take m).length := by
      by_contra hcon
      rw [List.getElem?_eq_none (by omega)] at hc
      cases hc
    have := hch i (by omega)
    rw [List.getElem?_eq_getElem (by omega)] at ha
    rw [List.getElem?_eq_getElem hi] at hc
    cases ha; cases hc
    exact this
  · intro b hb
    have hlt : ∀ x ∈ (G (ceilLog2 m - 1)).take m, x < m := by
      intro x hx
      rcases Nat.eq_zero_or_pos b with rfl | hb0
      · subst hb
        have : ceilLog2 (2 ^ 0) - 1 = 0 := by decide
        rw [this] at hx
        have : x = 0 := by
          change x ∈ [0] at hx
          simpa using hx
        subst this; norm_num
      · have h := G_lt _ x (List.mem_of_mem_take hx)
        rw [hb, ceilLog2_pow, Nat.sub_add_cancel hb0] at h
        rw [hb]; exact h
    have hlen : ((G (ceilLog2 m - 1)).take m).length = m := by
      rw [List.length_take, G_length, Nat.min_eq_left (le_two_pow_ceilLog2 m)]
    refine ⟨?_, fun hb1 => ?_⟩
    · have hsub : ((G (ceilLog2 m - 1)).take m).Subperm (List.range m) :=
        List.subperm_of_subset ((List.take_sublist _ _).nodup (G_nodup _))
          (fun x hx => List.mem_range.2 (hlt x hx))
      exact hsub.perm_of_length_le (by rw [hlen]; simp)
    · refine ⟨2 ^ (b - 1), ?_, ⟨b - 1, by simp⟩⟩
      have hGl : (G (b - 1)).length = 2 ^ b := by rw [G_length, Nat.sub_add_cancel hb1]
      rw [hb, ceilLog2_pow, List.getElem?_take, if_pos (by have := Nat.one_le_two_pow (n := b); omega),
        ← hGl, ← List.getLast?_eq_getElem?, G_last]

/-- **C15**, closed form: entry `i` is `i xor (i/2)`, the reflected binary code. -/
theorem C15_gray_formula (m : ℕ) (hm : 1 ≤ m) :
    ∃ v, getGrayLevelVec m = .ok v ∧ ∀ i < m, v[i]? = some (i ^^^ (i / 2)) := by
  refine ⟨_, getGray_eq m hm, fun i hi => ?_⟩
  rw [List.getElem?_take, if_pos hi, G_getElem? _ _ (lt_of_lt_of_le hi (le_two_pow_ceilLog2 m))]

/-- **C15**, rejection: zero levels raise. -/
theorem C15_gray_zero : getGrayLevelVec 0 = .error .overflow := rfl

example : getGrayLevelVec 6 = .ok [0, 1, 3, 2, 6, 7] := by decide
example : (8 : ℕ) = 2 ^ 3 := rfl

/-- **C16** (partial: every constellation except PAM3). Gray coding of valid symbols gives valid
symbols and decoding returns the original. -/
theorem C16_gray_roundtrip_partial (c : Constellation) (hc : c ≠ .pam3) (p : List Int)
    (hp : ∀ x ∈ p, 0 ≤ x ∧ x < (intLevels c).length) :
    ∃ q, codingGray p c = .ok q ∧ q.length = p.length ∧
      (∀ x ∈ q, 0 ≤ x ∧ x < (intLevels c).length) ∧ decodingGray q c = .ok p := by
  have two : ∀ (p : List Int), (∀ x ∈ p, 0 ≤ x ∧ x < 2) → npTake [(0:Int), 1] p = .ok p := by
    intro p hp
    have := npTake_ok [(0:Int), 1] p id (fun x hx => by
      obtain ⟨h1, h2⟩ := hp x hx
      interval_cases x <;> rfl)
    rwa [List.map_id] at this
  cases c with
  | nrz => exact ⟨p, rfl, rfl, hp, two p (by simpa [intLevels] using hp)⟩
  | ook => exact ⟨p, rfl, rfl, hp, two p (by simpa [intLevels] using hp)⟩
  | pam3 => exact absurd rfl hc
  | pam4 =>
    have hp' : ∀ x ∈ p, 0 ≤ x ∧ x < 4 := by simpa [intLevels] using hp
    obtain ⟨g, hg⟩ : ∃ g : Int → Int, g = fun x => if x = 2 then 3 else if x = 3 then 2 else x :=
      ⟨_, rfl⟩
    have hr : ∀ x, 0 ≤ x ∧ x < 4 → 0 ≤ g x ∧ g x < 4 := by
      rintro x ⟨h1, h2⟩; rw [hg]; interval_cases x <;> simp
    have hget : ∀ x, 0 ≤ x ∧ x < 4 → npGet [(0:Int), 1, 3, 2] x = .ok (g x) := by
      rintro x ⟨h1, h2⟩; rw [hg]; interval_cases x <;> rfl
    have hinv : ∀ x, 0 ≤ x ∧ x < 4 → g (g x) = x := by
      rintro x ⟨h1, h2⟩; rw [hg]; interval_cases x <;> rfl
    have hq : ∀ x ∈ p.map g, 0 ≤ x ∧ x < 4 := by
      intro x hx
      rw [List.mem_map] at hx
      obtain ⟨y, hy, rfl⟩ := hx
      exact hr y (hp' y hy)
    refine ⟨p.map g, ?_, by simp, by simpa [intLevels] using hq, ?_⟩
    · exact npTake_ok [(0:Int), 1, 3, 2] p g (fun x hx => hget x (hp' x hx))
    · have := npTake_ok [(0:Int), 1, 3, 2] (p.map g) g (fun x hx => hget x (hq x hx))
      rw [List.map_map, show p.map (g ∘ g) = p from ?_] at this
      · exact this
      · conv_rhs => rw [← List.map_id p]
        exact List.map_congr_left (fun x hx => hinv x (hp' x hx))

/-- **C16** *violated* for PAM3: every valid PAM3 pattern that contains symbol 2 is coded to a pattern
containing the invalid symbol 3, and decoding it raises IndexError. -/
theorem C16_negative_pam3 (p : List Int) (hp : ∀ x ∈ p, 0 ≤ x ∧ x < 3) (h2 : 2 ∈ p) :
    ∃ q, codingGray p .pam3 = .ok q ∧ 3 ∈ q ∧ decodingGray q .pam3 = .error .indexError := by
  obtain ⟨g, hg⟩ : ∃ g : Int → Int, g = fun x => if x = 2 then 3 else x := ⟨_, rfl⟩
  have h3 : 3 ∈ p.map g := List.mem_map.2 ⟨2, h2, by rw [hg]; rfl⟩
  refine ⟨p.map g, ?_, h3, ?_⟩
  · refine npTake_ok [(0:Int), 1, 3] p g (fun x hx => ?_)
    obtain ⟨h1, h2⟩ := hp x hx
    rw [hg]; interval_cases x <;> rfl
  · exact npTake_error [(0:Int), 1, 3] (p.map g) ⟨3, h3, rfl⟩

/-- **C16**, user-visible purpose of Gray coding: for PAM4 two adjacent received levels decode to
symbols whose two bits differ in exactly one position. -/
theorem C16_adjacent_one_bit (l : ℕ) (hl : l + 1 < 4) :
    ∃ a c : ℕ, decodingGray [(l : Int)] .pam4 = .ok [(a : Int)] ∧
      decodingGray [((l + 1 : ℕ) : Int)] .pam4 = .ok [(c : Int)] ∧ OneBitApart a c := by
  have : l = 0 ∨ l = 1 ∨ l = 2 := by omega
  rcases this with rfl | rfl | rfl
  · exact ⟨0, 1, by decide, by decide, 0, rfl⟩
  · exact ⟨1, 3, by decide, by decide, 1, rfl⟩
  · exact ⟨3, 2, by decide, by decide, 0, rfl⟩

example : codingGray [0, 3, 2, 1] .pam4 = .ok [0, 2, 3, 1] := by decide
example : ∀ x ∈ ([0, 2, 1] : List Int), 0 ≤ x ∧ x < 3 := by decide

end Verif
