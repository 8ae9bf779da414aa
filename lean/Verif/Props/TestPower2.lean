import Verif.Props.TestPower
import Verif.Props.PrbsTests
import Verif.Props.SymbolTests
import Verif.Props.LockTests
import Verif.Props.ConvTests

/-! **C107**, continued: the tests of the PRBS generator and checker, of the bit-to-symbol conversion, of the pattern lock and of
the convolutional code, for arbitrary implementations of the tested functions. -/

namespace Verif
open Spec

theorem test_iff2 {α β : Type} [BEq α] [LawfulBEq α] [BEq β] [LawfulBEq β] (x : Py (α × β)) (r : α) (s : β) :
    ((do let (a, b) ← x; return r == a && s == b) : Py Bool) = .ok true ↔ x = .ok (r, s) := by
  cases x with
  | error e => simp [bind, Except.bind]
  | ok d =>
    obtain ⟨a, b⟩ := d
    simp only [bind, Except.bind, pure, Except.pure, Except.ok.injEq, Bool.and_eq_true, beq_iff_eq, Prod.mk.injEq]
    exact ⟨fun h => ⟨h.1.symm, h.2.symm⟩, fun h => ⟨h.1.symm, h.2.symm⟩⟩

/-! ### PRBS -/

/-- **C107**, `prbs_gen_test`: a generator passes for a length exactly if it returns the first bits of the shift-register stream
from the all-ones seed and the register after them, latest bit first. -/
theorem C107_prbs_gen (gen : List Int → List Int → Int → Py (List Int × List Int)) (p : PrbsEnum) (ref : List Int)
    (h : csvData p = some ref) (L : ℕ) (b : ℕ → Int) (hb : LfsrStream (getPolynomial p) (List.replicate p.value 1) b) :
    prbsGenTestOf gen p ref L = .ok true ↔
      ∃ s sd, gen (getPolynomial p) (List.replicate p.value 1) L = .ok (s, sd) ∧ s.length = L ∧ (∀ t < L, s.getD t 0 = b t) ∧
        sd.length = p.value ∧ ∀ i < p.value, sd.getD i 0 = if i < L then b (L - 1 - i) else 1 := by
  have hol : (List.replicate p.value (1:Int)).length = p.value := by simp
  have hv := value_pos p
  rw [lfsrStream_unique hb (lfsrStream_bitAt _ _ (by simp [poly_length]))]
  have hlib := C86_gen_test p ref h L
  have hsup := prbsGenerator_supported p _ hol L
  unfold prbsGenTest at hlib
  unfold prbsGenTestOf at hlib ⊢
  dsimp only at hlib ⊢
  rw [test_iff2] at hlib ⊢
  rw [hsup] at hlib
  rw [← Except.ok.inj hlib]
  have hreg : (reg (getPolynomial p) (List.replicate p.value 1) L).length = p.value := by
    rw [reg_length _ _ _ (by simp; omega), hol]
  have hregD : ∀ i < p.value, (reg (getPolynomial p) (List.replicate p.value 1) L).getD i 0
      = if i < L then bitAt (getPolynomial p) (List.replicate p.value 1) (L - 1 - i) else 1 := by
    intro i hi
    rw [reg_getD _ _ _ _ (by simpa using hi)]
    split
    · rfl
    · rw [getD_of_lt 0 _ (by simp; omega)]
      simp
  constructor
  · intro e
    exact ⟨_, _, e, by simp, fun t ht => map_range_getD _ _ _ _ ht, hreg, hregD⟩
  · rintro ⟨s, sd, e, h1, h2, h3, h4⟩
    rw [e]
    congr 2
    · apply ext_getD 0 (by simp [h1])
      intro t ht
      rw [h2 t (by omega), map_range_getD _ _ _ _ (by omega)]
    · apply ext_getD 0 (by rw [h3, hreg])
      intro i hi
      rw [h4 i (by omega), hregD i (by omega)]

/-- **C107**, `prbs_analysis_test`: a checker passes on a draw exactly if its report is the exact one, both for the rotated sequence
without and for the unrotated sequence with initial lock. The number of errors is not restricted. -/
theorem C107_prbs_analysis (chk : PrbsEnum → List Int → Bool → Int → Py CheckResult) (p : PrbsEnum) (ref : List Int)
    (h : csvData p = some ref) (shift : ℕ) (hs : shift ≤ ref.length) (errs : List Bool) (hl : errs.length = ref.length) (th : Int)
    (b : ℕ → Int) (hb : LfsrStream (getPolynomial p) (List.replicate p.value 1) b) (data : ℕ → List Int)
    (hd : ∀ k, (data k).length = ref.length ∧
      ∀ i < ref.length, (data k).getD i 0 = if errs.getD i false then 1 - b (k + i) else b (k + i)) :
    prbsAnalysisTestOf chk p ref shift errs th = .ok true ↔
      ∃ r r', chk p (data shift) false th = .ok r ∧
        ExactReport (data shift) (fun i => b (shift + i)) th r.lostLock r.correctBitCount r.errorBit ∧
        chk p (data 0) true th = .ok r' ∧ ExactReport (data 0) b th r'.lostLock r'.correctBitCount r'.errorBit := by
  have hbb := lfsrStream_unique hb (lfsrStream_bitAt _ _ (by simp [poly_length]))
  have hbin : ∀ i, b i = 0 ∨ b i = 1 := fun i => by rw [hbb]; exact bitAt_bin _ _ i
  have hdat : ∀ k ≤ ref.length, flipBits errs (ref.drop k ++ ref.take k) = data k := by
    intro k hk
    have hlr : (ref.drop k ++ ref.take k).length = ref.length := by simp; omega
    have hfl : (flipBits errs (ref.drop k ++ ref.take k)).length = ref.length := by
      unfold flipBits
      rw [List.length_zipWith, hlr, hl, Nat.min_self]
    apply ext_getD 0 (by rw [hfl, (hd k).1])
    intro i hi
    rw [hfl] at hi
    rw [flipBits_getD _ _ (by rw [hl, hlr]) i (by omega), rotated_getD p ref h k hk i hi, (hd k).2 i hi, hbb]
  have h0 := hdat 0 (by omega)
  rw [List.drop_zero, List.take_zero, List.append_nil] at h0
  have hrep : ∀ k, ∀ r : CheckResult, (decide ((errs.count true : Int) ≥ th) == r.lostLock
      && ((ref.length : Int) - errs.count true) == r.correctBitCount && errs == r.errorBit) = true ↔
      ExactReport (data k) (fun i => b (k + i)) th r.lostLock r.correctBitCount r.errorBit := by
    intro k r
    constructor
    · intro e
      simp only [Bool.and_eq_true, beq_iff_eq] at e
      obtain ⟨r0, -, hr0⟩ := compareBits_spec (data k) ((List.range ref.length).map (fun i => b (k + i))) (by rw [(hd k).1]; simp) th
        (fun i => b (k + i)) (fun i hi => by unfold stream; rw [map_range_getD _ _ _ _ (by rw [← (hd k).1]; exact hi)])
      obtain ⟨-, e1, e2, e3⟩ := flip_report (data k) errs _ (fun i => hbin _) (hd k).1 hl (hd k).2 th r0 hr0
      rw [e1, e2, e3] at hr0
      rw [← e.1.1, ← e.1.2, ← e.2]
      exact hr0
    · intro hr
      obtain ⟨-, e1, e2, e3⟩ := flip_report (data k) errs _ (fun i => hbin _) (hd k).1 hl (hd k).2 th r hr
      rw [e1, e2, e3]
      simp
  unfold prbsAnalysisTestOf
  dsimp only
  rw [hdat shift hs, h0]
  constructor
  · intro e
    cases hc : chk p (data shift) false th with
    | error er => rw [hc] at e; exact absurd e (by simp [bind, Except.bind])
    | ok r =>
      rw [hc] at e
      simp only [py_bind_ok] at e
      split at e
      · rename_i h1
        cases hc' : chk p (data 0) true th with
        | error er => rw [hc'] at e; exact absurd e (by simp [bind, Except.bind])
        | ok r' =>
          rw [hc'] at e
          simp only [py_bind_ok, pure, Except.pure, Except.ok.injEq] at e
          have := (hrep 0 r').1 e
          simp only [Nat.zero_add] at this
          exact ⟨r, r', rfl, (hrep shift r).1 h1, rfl, this⟩
      · exact absurd e (by simp)
  · rintro ⟨r, r', h1, h2, h3, h4⟩
    rw [h1]
    simp only [py_bind_ok]
    rw [if_pos ((hrep shift r).2 h2), h3]
    simp only [py_bind_ok, pure, Except.pure, Except.ok.injEq]
    apply (hrep 0 r').2
    simp only [Nat.zero_add]
    exact h4

/-- a generator with a wrong tap and a checker that never reports an error are rejected -/
example : prbsGenTestOf (fun _ s n => .ok (List.replicate n.toNat 0, s)) .prbs7 (csvBits 127 csvPrbs7) 20 = .ok false ∧
    prbsAnalysisTestOf (fun _ d _ _ => .ok ⟨false, d.length, d.map (fun _ => false)⟩) .prbs7 (csvBits 127 csvPrbs7) 5
      (true :: List.replicate 126 false) 10 = .error .typeError := by decide +kernel

/-! ### bits and symbols -/

theorem symRef_spec (bits : List Int) (b : ℕ) (hb : 1 ≤ b) (f : SymFlags) :
    SymbolCoded bits b f.bitOrderInv f.invMsb f.invLsb f.pnInv (symRef bits b f) := by
  unfold symRef SymbolCoded
  by_cases hb1 : b = 1
  · subst hb1
    simp only [if_true, Nat.div_one]
    split
    · refine ⟨by simp, fun i hi => ?_⟩
      rw [getD_map_lt _ 0 0 _ (by simpa using hi)]
    · exact ⟨rfl, fun i _ => rfl⟩
  · simp only [if_neg hb1]
    refine ⟨by simp, fun i hi => ?_⟩
    rw [List.length_map, List.length_range] at hi
    have hsum : ∀ (n : ℕ) (g : ℕ → Int), ((List.range n).map g).sum = ∑ j ∈ Finset.range n, g j := by
      intro n g
      induction n with
      | zero => rfl
      | succ n ih => rw [List.range_succ, List.map_append, List.sum_append, ih, Finset.sum_range_succ]; simp
    rw [map_range_getD _ _ _ _ hi, hsum]
    refine Finset.sum_congr rfl (fun j _ => ?_)
    congr 1
    unfold symRefBit sentBit
    have hj : (j = b - 1) = (j + 1 = b) := by simp only [eq_iff_iff]; omega
    simp only [hj]
    generalize bits.getD (b * i + if f.bitOrderInv = true then b - 1 - j else j) 0 = x
    cases f.pnInv <;> cases f.invMsb <;> cases f.invLsb <;> by_cases h1 : j + 1 = b <;> by_cases h2 : j = 0 <;>
      simp [h1, h2, show ¬ 1 = b from fun h => hb1 h.symm]

theorem symbol_unique {bits : List Int} {b : ℕ} {m t o a : Bool} {s r : List Int} (h : SymbolCoded bits b m t o a r)
    (hs : SymbolCoded bits b m t o a s) : s = r :=
  ext_getD 0 (hs.1.trans h.1.symm) (fun i hi => by rw [hs.2 i hi, h.2 i (by rw [h.1, ← hs.1]; exact hi)])

/-- **C107**, `bin2symbol_test` and `symbol2bin_test`: conversions pass on a draw of two or more bits exactly if the symbols have the
documented value for every combination of the four flags and the way back returns the bits of the complete symbols. -/
theorem C107_symbols (b2s s2b : List Int → Nat → SymFlags → Py (List Int)) (bits : List Int) (hl : 2 ≤ bits.length) (b : ℕ)
    (hb : 1 ≤ b) (f : SymFlags) :
    (bin2symbolTestOf b2s bits b f = .ok true ∧ symbol2binTestOf b2s s2b bits b f = .ok true) ↔
      ∃ s, b2s bits (2 ^ b) f = .ok s ∧ SymbolCoded bits b f.bitOrderInv f.invMsb f.invLsb f.pnInv s ∧
        s2b s (2 ^ b) f = .ok (bits.take (bits.length / b * b)) := by
  have hlog : ¬ Nat.log2 bits.length < 1 := by
    rw [Nat.log2_lt (by omega)]
    omega
  have h1 : bin2symbolTestOf b2s bits b f = .ok true ↔
      ∃ s, b2s bits (2 ^ b) f = .ok s ∧ SymbolCoded bits b f.bitOrderInv f.invMsb f.invLsb f.pnInv s := by
    unfold bin2symbolTestOf
    rw [if_neg hlog]
    show (do let dut ← b2s bits (2 ^ b) f; return symRef bits b f == dut) = _ ↔ _
    rw [test_iff]
    exact spec_iff (symRef_spec bits b hb f) (fun s hs => symbol_unique (symRef_spec bits b hb f) hs)
  have htake : (if b > 1 then bits.take (bits.length / b * b) else bits) = bits.take (bits.length / b * b) := by
    split
    · rfl
    · obtain rfl : b = 1 := by omega
      simp
  have h2 : symbol2binTestOf b2s s2b bits b f = .ok true ↔
      ∃ s, b2s bits (2 ^ b) f = .ok s ∧ s2b s (2 ^ b) f = .ok (bits.take (bits.length / b * b)) := by
    unfold symbol2binTestOf
    rw [if_neg hlog, htake]
    show (do let s ← b2s bits (2 ^ b) f; let dut ← s2b s (2 ^ b) f; return bits.take (bits.length / b * b) == dut) = _ ↔ _
    cases b2s bits (2 ^ b) f with
    | error e => simp [bind, Except.bind]
    | ok s =>
      have := test_iff (s2b s (2 ^ b) f) (bits.take (bits.length / b * b))
      simp only [py_bind_ok, Except.ok.injEq, exists_eq_left']
      exact this
  rw [h1, h2]
  constructor
  · rintro ⟨⟨s, e, hs⟩, s', e', hd⟩
    rw [e] at e'
    cases e'
    exact ⟨s, e, hs, hd⟩
  · rintro ⟨s, e, hs, hd⟩
    exact ⟨⟨s, e, hs⟩, s, e, hd⟩

/-- a conversion that takes the first bit as the most significant one is rejected -/
example : bin2symbolTestOf (fun bits l f => bin2symbol bits l { f with bitOrderInv := !f.bitOrderInv }) [1, 0, 1, 1] 2
    ⟨false, false, false, false⟩ = .ok false := by decide +kernel

/-! ### pattern lock -/

theorem argmax_iff (x : List Int) (hx : x ≠ []) (k : ℕ) : argmax x = k ↔ FirstMax x k := by
  have h1 := argmax_lt x hx
  have h2 := argmax_spec x hx
  have h3 := argmax_first x
  have hmax : ∀ j < x.length, x.getD j 0 ≤ x.getD (argmax x) 0 := by
    intro j hj
    rw [getD_of_lt 0 x hj, getD_of_lt 0 x h1]
    exact h2 _ (List.getElem_mem hj)
  have hfirst : ∀ j < argmax x, x.getD j 0 < x.getD (argmax x) 0 := by
    intro j hj
    obtain ⟨y, hy, hlt⟩ := h3 j hj (by omega)
    rw [getD_of_lt 0 x (by omega : j < x.length), getD_of_lt 0 x h1]
    exact lt_of_lt_of_le hlt (h2 y hy)
  constructor
  · rintro rfl
    exact ⟨h1, hmax, hfirst⟩
  · rintro ⟨e1, e2, e3⟩
    rcases lt_trichotomy (argmax x) k with h | h | h
    · exact absurd (hmax k e1) (not_le.2 (e3 _ h))
    · exact h
    · exact absurd (e2 _ h1) (not_le.2 (hfirst _ h))

theorem lockRef_spec (pattern : List Int) (shift : ℕ) (hs : shift ≤ pattern.length) (a : List Int) :
    lockRef pattern shift = a ↔ a.length = pattern.length ∧
      ∀ i < pattern.length, a.getD i 0 = pattern.getD ((i + (pattern.length - shift)) % pattern.length) 0 := by
  have hlen : (lockRef pattern shift).length = pattern.length := by
    unfold lockRef lastN
    split
    · rfl
    · rw [List.length_append, List.length_drop, List.length_take]
      omega
  have hval : ∀ i < pattern.length, (lockRef pattern shift).getD i 0
      = pattern.getD ((i + (pattern.length - shift)) % pattern.length) 0 := by
    intro i hi
    unfold lockRef
    split
    · rename_i h0
      rw [h0, Nat.sub_zero, Nat.add_mod_right, Nat.mod_eq_of_lt hi]
    · unfold lastN
      by_cases h1 : i < shift
      · rw [List.getD_eq_getElem?_getD, List.getElem?_append_left (by simp; omega), List.getElem?_drop,
          ← List.getD_eq_getElem?_getD, Nat.mod_eq_of_lt (by omega)]
        congr 1
        omega
      · rw [List.getD_eq_getElem?_getD, List.getElem?_append_right (by simp; omega), List.length_drop, List.getElem?_take,
          if_pos (by omega), ← List.getD_eq_getElem?_getD]
        congr 1
        rw [show i + (pattern.length - shift) = (i - shift) + pattern.length by omega, Nat.add_mod_right,
          Nat.mod_eq_of_lt (by omega)]
        omega
  constructor
  · rintro rfl
    exact ⟨hlen, hval⟩
  · rintro ⟨h1, h2⟩
    apply ext_getD 0 (by rw [hlen, h1])
    intro i hi
    rw [hlen] at hi
    rw [hval i hi, h2 i hi]

/-- **C107**, `lock_pattern_to_signal_test`: a lock function passes exactly if it returns the pattern rotated by the shift and
correlation values whose first largest one is at the length minus the shift. -/
theorem C107_lock (lk : List Int → List Int → Py (List Int × List Int)) (pattern signal : List Int) (shift : ℕ)
    (hs : shift ≤ pattern.length) (hne : ∀ a x, lk pattern signal = .ok (a, x) → x ≠ []) :
    lockTestOf lk pattern signal shift = .ok true ↔
      ∃ a x, lk pattern signal = .ok (a, x) ∧ a.length = pattern.length ∧
        (∀ i < pattern.length, a.getD i 0 = pattern.getD ((i + (pattern.length - shift)) % pattern.length) 0) ∧
        FirstMax x (pattern.length - shift) := by
  unfold lockTestOf
  cases hk : lk pattern signal with
  | error e => simp [bind, Except.bind]
  | ok r =>
    obtain ⟨a, x⟩ := r
    simp only [py_bind_ok, pure, Except.pure, Except.ok.injEq, Bool.and_eq_true, beq_iff_eq, Prod.mk.injEq]
    rw [lockRef_spec pattern shift hs a, show ((pattern.length : Int) - shift = (argmax x : Int)) ↔ argmax x = pattern.length - shift
      by omega, argmax_iff x (hne a x hk)]
    constructor
    · rintro ⟨⟨h1, h2⟩, h3⟩
      exact ⟨a, x, ⟨rfl, rfl⟩, h1, h2, h3⟩
    · rintro ⟨_, _, ⟨rfl, rfl⟩, h1, h2, h3⟩
      exact ⟨⟨h1, h2⟩, h3⟩

/-- **C107**, `lock_pattern_to_signal_binary_test`: the same with the position taken modulo the length. -/
theorem C107_lock_binary (lk : List Int → List Int → Py (List Int × List Int)) (pattern signal : List Int) (shift : ℕ)
    (hs : shift ≤ pattern.length) (hne : ∀ a x, lk pattern signal = .ok (a, x) → x ≠ []) :
    lockBinaryTestOf lk pattern signal shift = .ok true ↔
      ∃ a x, lk pattern signal = .ok (a, x) ∧ a.length = pattern.length ∧
        (∀ i < pattern.length, a.getD i 0 = pattern.getD ((i + (pattern.length - shift)) % pattern.length) 0) ∧
        FirstMax x ((pattern.length - shift) % pattern.length) := by
  unfold lockBinaryTestOf
  cases hk : lk pattern signal with
  | error e => simp [bind, Except.bind]
  | ok r =>
    obtain ⟨a, x⟩ := r
    simp only [py_bind_ok, pure, Except.pure, Except.ok.injEq, Bool.and_eq_true, beq_iff_eq, Prod.mk.injEq]
    have hcast : ((pattern.length : Int) - shift) % pattern.length = (((pattern.length - shift) % pattern.length : ℕ) : Int) := by
      rw [Int.natCast_mod, Nat.cast_sub hs]
    rw [lockRef_spec pattern shift hs a, hcast, Nat.cast_inj, eq_comm (b := argmax x), argmax_iff x (hne a x hk)]
    constructor
    · rintro ⟨⟨h1, h2⟩, h3⟩
      exact ⟨a, x, ⟨rfl, rfl⟩, h1, h2, h3⟩
    · rintro ⟨_, _, ⟨rfl, rfl⟩, h1, h2, h3⟩
      exact ⟨⟨h1, h2⟩, h3⟩

/-- **C107**, negative: `lock_pattern_to_signal_test` with shift 0 cannot be passed by any lock function that returns one correlation
value per pattern position: the comparison on line 52 lacks the remainder of line 27. -/
theorem C107_negative_lock_zero (lk : List Int → List Int → Py (List Int × List Int)) (pattern signal : List Int)
    (hx : ∀ a x, lk pattern signal = .ok (a, x) → x.length = pattern.length) (hp : 0 < pattern.length) :
    lockTestOf lk pattern signal 0 ≠ .ok true := by
  have hne : ∀ a x, lk pattern signal = .ok (a, x) → x ≠ [] := by
    rintro a x h rfl
    have := hx a [] h
    simp at this
    omega
  rw [ne_eq, C107_lock lk pattern signal 0 (by omega) hne]
  rintro ⟨a, x, h, -, -, h3, -⟩
  rw [hx a x h] at h3
  omega

/-! ### convolutional code -/

theorem conv_ext {nO n : ℕ} {c r : List Int} (hc : c.length = nO * n) (hr : r.length = nO * n)
    (h : ∀ t j : ℕ, t < n → j < nO → c.getD (t * nO + j) 0 = r.getD (t * nO + j) 0) : c = r := by
  apply ext_getD 0 (hc.trans hr.symm)
  intro i hi
  rw [hc] at hi
  have hpos : 0 < nO := Nat.pos_of_ne_zero (by rintro rfl; simp at hi)
  have := h (i / nO) (i % nO) (Nat.div_lt_of_lt_mul hi) (Nat.mod_lt _ hpos)
  rwa [mul_comm, Nat.div_add_mod] at this

/-- **C107**, `coding_conv_basic_test`: an encoder passes on a draw exactly if every output bit is the sum of the taps over the input
history. -/
theorem C107_conv_basic (enc : List Int → ConvG → Py (List Int)) {nO : ℕ} {G : ConvG} {p : List Int} (h : TestDraw 1 1 nO G p) :
    codingConvBasicTestOf enc p G = .ok true ↔
      ∃ c, enc p G = .ok c ∧ c.length = nO * ((p.length + G.length - 1) / G.length) ∧
        ∀ t j : ℕ, t < (p.length + G.length - 1) / G.length → j < nO →
          c.getD (t * nO + j) 0 = (∑ i ∈ Finset.range G.length, tapSum (tf G i j) (inBit p G.length i) t) % 2 := by
  have hne : p ≠ [] := by rintro rfl; have := h.pattern.1; simp at this
  have hbuf := buffer_rows p hne G.length (by have := h.inputs.1; omega)
  have hlib := C83_basic_coding h
  obtain ⟨c, h1, h2, -, h4⟩ := C34_encoder h.good none p h.pattern.2 rnd53 C34_double (draw_sums h)
  unfold codingConvBasicTest at hlib
  unfold codingConvBasicTestOf at hlib ⊢
  rw [hbuf] at hlib ⊢
  simp only [py_bind_ok] at hlib ⊢
  rw [test_iff] at hlib ⊢
  rw [h1] at hlib
  rw [← Except.ok.inj hlib]
  refine spec_iff (P := fun c : List Int => c.length = nO * ((p.length + G.length - 1) / G.length) ∧
        ∀ t j : ℕ, t < (p.length + G.length - 1) / G.length → j < nO →
          c.getD (t * nO + j) 0 = (∑ i ∈ Finset.range G.length, tapSum (tf G i j) (inBit p G.length i) t) % 2) ⟨h2, h4⟩ ?_
  rintro q ⟨q1, q2⟩
  exact conv_ext q1 h2 (fun t j ht hj => by rw [q2 t j ht hj, h4 t j ht hj])

/-- **C107**, `coding_conv_feedback_test`, for draws in which inputs without feedback polynomial have no memory (for the others the
test's own reference is wrong, `C83_negative_memoryless`): an encoder passes exactly if it is the encoder with registers that start
empty. -/
theorem C107_conv_feedback_partial (enc : List Int → ConvG → ConvFb → ConvUf → Py (List Int)) {nO : ℕ} {G : ConvG} {p : List Int}
    {l : List (Option (List Int))} {u : List (List Int)} (h : TestDraw 1 1 nO G p) (hF : FeedbackDraw nO G l u)
    (hall : ∀ i j, i < G.length → j < nO → l.getD i none = none → ∀ d, 1 ≤ d → (tf G i j).getD d 0 = 0)
    (w : ℕ → ℤ → Int)
    (hw : ∀ i < G.length, IsRegister (poly (some (l, u)) i) (inBit p G.length i) (w i) ∧ ∀ t < 0, w i t = 0) :
    codingConvFeedbackTestOf enc p G (some l) (some u) = .ok true ↔
      ∃ c, enc p G (some l) (some u) = .ok c ∧ c.length = nO * ((p.length + G.length - 1) / G.length) ∧
        ∀ t j : ℕ, t < (p.length + G.length - 1) / G.length → j < nO → c.getD (t * nO + j) 0
          = encBit G.length (tf G) (fun i j => isDirect (some (l, u)) i j = true) (inBit p G.length) w j t := by
  have hne : p ≠ [] := by rintro rfl; have := h.pattern.1; simp at this
  have hbuf := buffer_rows p hne G.length (by have := h.inputs.1; omega)
  have hlib := (C83_feedback_coding_partial h hF hall).1
  obtain ⟨c, h1, h2, -, h4⟩ := coding_code (feedbackDraw_good h.good hF) (feedbackDraw_direct hF) p h.pattern.2 w hw
  have h2' : c.length = nO * ((p.length + G.length - 1) / G.length) := by rw [h2, Nat.mul_comm]; rfl
  have h1' : codingConv id p G (some l) (some u) = .ok c := h1
  unfold codingConvFeedbackTest at hlib
  unfold codingConvFeedbackTestOf at hlib ⊢
  rw [hbuf] at hlib ⊢
  simp only [py_bind_ok] at hlib ⊢
  rw [test_iff] at hlib ⊢
  rw [h1'] at hlib
  rw [← Except.ok.inj hlib]
  refine spec_iff (P := fun c : List Int => c.length = nO * ((p.length + G.length - 1) / G.length) ∧
        ∀ t j : ℕ, t < (p.length + G.length - 1) / G.length → j < nO → c.getD (t * nO + j) 0
          = encBit G.length (tf G) (fun i j => isDirect (some (l, u)) i j = true) (inBit p G.length) w j t) ⟨h2', h4⟩ ?_
  rintro q ⟨q1, q2⟩
  exact conv_ext q1 h2' (fun t j ht hj => by rw [q2 t j ht hj]; exact (h4 t j ht hj).symm)

theorem samePrefix_iff (p d : List Int) : samePrefix p d = .ok true ↔ d <+: p := by
  unfold samePrefix
  split
  · rename_i h
    simp only [reduceCtorEq, false_iff]
    intro hp
    have := hp.length_le
    omega
  · simp only [Except.ok.injEq, beq_iff_eq]
    rw [List.prefix_iff_eq_take]
    exact eq_comm

theorem samePrefix_prefix {p d : List Int} (h : d <+: p) : samePrefix p d = .ok true := (samePrefix_iff p d).2 h

/-- **C107**, `decoding_conv_basic_test` and `decoding_conv_feedback_test`: two decoders pass exactly if both return a prefix of the
pattern, however short. -/
theorem C107_conv_decoding (enc : List Int → ConvG → ConvFb → ConvUf → Py (List Int))
    (ml vit : List Int → ConvG → Nat → ConvFb → ConvUf → Py (List Int)) (p : List Int) (G : ConvG) (fb : ConvFb) (uf : ConvUf) :
    decodingConvTestOf enc ml vit p G fb uf = .ok true ↔
      ∃ c d v, enc p G fb uf = .ok c ∧ ml c G (5 * nOut G) fb uf = .ok d ∧ d <+: p ∧
        vit c G (5 * nOut G) fb uf = .ok v ∧ v <+: p := by
  unfold decodingConvTestOf
  constructor
  · intro h
    cases hc : enc p G fb uf with
    | error e => rw [hc] at h; exact absurd h (by simp [bind, Except.bind])
    | ok c =>
      rw [hc] at h
      simp only [py_bind_ok] at h
      cases hd : ml c G (5 * nOut G) fb uf with
      | error e => rw [hd] at h; exact absurd h (by simp [bind, Except.bind])
      | ok d =>
        rw [hd] at h
        simp only [py_bind_ok] at h
        cases hs : samePrefix p d with
        | error e => rw [hs] at h; exact absurd h (by simp [bind, Except.bind])
        | ok b =>
          rw [hs] at h
          simp only [py_bind_ok] at h
          cases b with
          | false => exact absurd h (by simp [pure, Except.pure])
          | true =>
            simp only [Bool.not_true, Bool.false_eq_true, if_false] at h
            cases hv : vit c G (5 * nOut G) fb uf with
            | error e => rw [hv] at h; exact absurd h (by simp [bind, Except.bind])
            | ok v =>
              rw [hv] at h
              simp only [py_bind_ok] at h
              exact ⟨c, d, v, rfl, hd, (samePrefix_iff p d).1 hs, hv, (samePrefix_iff p v).1 h⟩
  · rintro ⟨c, d, v, h1, h2, h3, h4, h5⟩
    rw [h1]
    simp only [py_bind_ok]
    rw [h2]
    simp only [py_bind_ok]
    rw [samePrefix_prefix h3]
    simp only [py_bind_ok, Bool.not_true, Bool.false_eq_true, if_false]
    rw [h4]
    simp only [py_bind_ok]
    exact samePrefix_prefix h5

/-- **C107**: decoders that return nothing at all pass the convolutional decoding tests on every draw. -/
theorem C107_blind_conv {lo extra nO : ℕ} {G : ConvG} {p : List Int} (h : TestDraw lo extra nO G p) :
    decodingConvTestOf (fun p G fb uf => codingConv rnd53 p G fb uf) (fun _ _ _ _ _ => .ok []) (fun _ _ _ _ _ => .ok []) p G none none
      = .ok true := by
  obtain ⟨c, h1, -⟩ := C34_encoder h.good none p h.pattern.2 rnd53 C34_double (draw_sums h)
  exact (C107_conv_decoding _ _ _ p G none none).2 ⟨c, [], [], h1, rfl, List.nil_prefix, rfl, List.nil_prefix⟩

/-- an encoder that swaps its outputs is rejected, and so is a decoder with one wrong bit -/
example : codingConvBasicTestOf (fun p G => codingConv id p (G.map List.reverse)) (impulse 99) [[[1, 0], [1, 1]]] = .ok false ∧
    decodingConvTestOf (fun p G fb uf => codingConv id p G fb uf) (fun _ _ _ _ _ => .ok [1, 0, 0, 1]) (fun _ _ _ _ _ => .ok [])
      (impulse 99) [[[1, 0], [1, 1]]] none none = .ok false := by decide +kernel

end Verif
