import Verif.Lemmas.Sim
import Verif.Props.Linear
import Verif.Props.Conv
import Verif.Props.ConvDec
import Verif.Props.Prbs
import Mathlib.Tactic.IntervalCases

/-!
Properties C61 (the decoder of the example simulation inverts the encoder) and C62 (the convergence
loop ends). Both claims are false for the code as it stands; the theorems give the part that holds and
the exact extent of the failures.
-/

namespace Verif
open Spec

theorem encoder_of {d : CodingData} {p x y z : List Int} (h1 : encodeBinary id d p = .ok x)
    (h2 : encodeSymbols d x = .ok y) (h3 : encodeOuter d y = .ok z) : encoder id d p = .ok z := by
  unfold encoder
  simp only [h1, h2, h3, bind, Except.bind]

theorem decoder_of {d : CodingData} {z y x : List Int} {p : List ℚ} (h3 : decodeOuter d z = .ok y)
    (h2 : decodeSymbols d y = .ok x) (h1 : decodeBinary d x = .ok p) : decoder d z = .ok p := by
  unfold decoder
  simp only [h1, h2, h3, bind, Except.bind]

theorem outer_off {d : CodingData} (hg : d.gray = false) (hd : d.differential = false) (y : List Int) :
    encodeOuter d y = .ok y ∧ decodeOuter d y = .ok y := by
  unfold encodeOuter decodeOuter optStage
  rw [hg, hd]
  exact ⟨rfl, rfl⟩

/-- **C61** (partial: the outer Gray and differential codes are off and at most one line code is on).
Every non-empty bit vector whose coded form fills whole symbols comes back unchanged, for every line
code, every number of bits per symbol and every combination of inversion flags. -/
theorem C61_single_stage_partial (d : CodingData) (st : Stage) (hst : OnlyStage d st) (hg : d.gray = false)
    (hd : d.differential = false) (p : List Int) (hp : IsBinary p) (hne : p ≠ [])
    (hfit : SymbolsFit d (st.expand * p.length) st.ternary) : Recovered d p := by
  obtain ⟨x, hx, hl, hb, hdec⟩ := stage_roundtrip hst p hp hne
  obtain ⟨y, hy, hyd, _, _⟩ := symbols_roundtrip (d := d) x st.ternary (hl ▸ hfit) hb
  exact ⟨y, encoder_of hx hy (outer_off hg hd y).1, decoder_of (outer_off hg hd y).2 hyd hdec⟩

example : Recovered { bps := .whole 2, constellation := .pam4, manchester := true, flags := { invMsb := true, pnInv := true } }
    [1, 0, 1, 1] :=
  C61_single_stage_partial _ .manchester ⟨rfl, rfl, rfl, rfl, rfl, rfl, rfl⟩ rfl rfl _
    (by intro x hx; simp at hx; omega) (by simp) (by right; exact ⟨rfl, by decide, by decide⟩)

/-- **C61** (partial: linear block code only, whole blocks). -/
theorem C61_linear_partial (d : CodingData) {n : ℕ} (hG : BinaryMatrix n d.gLinear) (hk : 0 < d.gLinear.length)
    (hn : 0 < n) (hind : RowsIndependent n d.gLinear)
    (hoff : d.gray = false ∧ d.differential = false ∧ d.binDifferential = false ∧ d.manchester = false ∧
      d.bipolar = false ∧ d.mlt3 = false ∧ d.diffManchester = false ∧ d.conv = false) (hlin : d.linear = true)
    (p : List Int) (hp : IsBinary p) (hdvd : d.gLinear.length ∣ p.length)
    (hfit : SymbolsFit d (n * (p.length / d.gLinear.length)) false) : Recovered d p := by
  obtain ⟨h1, h2, h3, h4, h5, h6, h7, h8⟩ := hoff
  obtain ⟨c, hc, hcb, hcl, _⟩ := C30_encoder hG hk p hp
  obtain ⟨c', hc', hdec⟩ := C31_roundtrip hG hk hn hind p hp
  have e : c' = c := by rw [hc] at hc'; exact (Except.ok.inj hc').symm
  subst e
  obtain ⟨q, hq⟩ := hdvd
  have hblk : (p.length + d.gLinear.length - 1) / d.gLinear.length = q := by
    rw [hq]
    rw [show d.gLinear.length * q + d.gLinear.length - 1 = (d.gLinear.length - 1) + d.gLinear.length * q by omega,
      Nat.add_mul_div_left _ _ hk, Nat.div_eq_of_lt (by omega), zero_add]
  have hdiv : p.length / d.gLinear.length = q := by rw [hq, Nat.mul_div_cancel_left _ hk]
  rw [hblk] at hcl hdec
  rw [hdiv] at hfit
  rw [hq, Nat.mul_comm, Nat.sub_self, List.replicate_zero, List.append_nil] at hdec
  obtain ⟨y, hy, hyd, _, _⟩ := symbols_roundtrip (d := d) c' false (hcl ▸ hfit) (fun _ => hcb)
  refine ⟨y, encoder_of (x := c') ?_ hy (outer_off h1 h2 y).1, decoder_of (outer_off h1 h2 y).2 hyd ?_⟩
  · unfold encodeBinary optStage
    rw [h3, h4, h5, h6, h7, h8, hlin]
    simp [bind, Except.bind, hc]
  · unfold decodeBinary decodeBinaryTail optStage
    rw [h3, h4, h5, h6, h7, h8, hlin]
    simp [bind, Except.bind, hdec, pure, Except.pure]

example : Recovered { bps := .whole 1, constellation := .ook, linear := true, gLinear := exG, flags := { pnInv := true } }
    [1, 0, 1, 1] := ⟨[0, 1, 0, 0, 1, 0, 1], by decide +kernel, by decide +kernel⟩

/-- **C61** (partial: convolutional code only, whole traceback blocks; the hypotheses on the code are
those of C38). -/
theorem C61_conv_partial (d : CodingData) {nO n : ℕ} {fb : Fb} (h : GoodCode nO d.gConv fb)
    (hdl : DirectLong nO d.gConv fb) (hpos : 0 < nO) (hf : Fits nO d.gConv fb) (hm : HasMemory nO d.gConv)
    (hid : Identified nO d.gConv fb) (hn : 0 < n)
    (hdet : ∀ v v' c, Word (d.gConv.length * n) v → Word (d.gConv.length * n) v' → IsCode nO n d.gConv fb v c →
      IsCode nO n d.gConv fb v' c → v = v')
    (hfb : d.feedback = fb.map Prod.fst) (huf : d.useFeedback = fb.map Prod.snd) (hchunk : d.chunkSize = n * nO)
    (hoff : d.gray = false ∧ d.differential = false ∧ d.binDifferential = false ∧ d.manchester = false ∧
      d.bipolar = false ∧ d.mlt3 = false ∧ d.diffManchester = false ∧ d.linear = false) (hconv : d.conv = true)
    (p : List Int) (hp : IsBinary p) (hne : p ≠ []) (hdvd : d.gConv.length * n ∣ p.length)
    (hfit : SymbolsFit d (nO * (p.length / d.gConv.length)) false) : Recovered d p := by
  obtain ⟨h1, h2, h3, h4, h5, h6, h7, h8⟩ := hoff
  have hG : 0 < d.gConv.length := List.length_pos_of_ne_nil h.1.1
  obtain ⟨q, hq⟩ := hdvd
  have hq0 : 0 < q := by
    rcases Nat.eq_zero_or_pos q with h0 | h0
    · rw [h0, Nat.mul_zero] at hq
      exact absurd (List.length_eq_zero_iff.1 hq) hne
    · exact h0
  have hblk : (p.length + d.gConv.length - 1) / d.gConv.length = n * q := by
    rw [hq, Nat.mul_assoc, show d.gConv.length * (n * q) + d.gConv.length - 1
      = (d.gConv.length - 1) + d.gConv.length * (n * q) by omega,
      Nat.add_mul_div_left _ _ hG, Nat.div_eq_of_lt (by omega), zero_add]
  obtain ⟨c, out, last, hc, hdec, hol, hov⟩ := C38_stream_partial h hdl hpos hf hm hid hn hdet p hp (by
    rw [hblk]; exact Nat.le_mul_of_pos_right n hq0)
  obtain ⟨c', hc', hcl, hcb, _⟩ := C35_register_partial h hdl p hp
  have e : c' = c := by rw [hc] at hc'; exact (Except.ok.inj hc').symm
  subst e
  rw [← hfb, ← huf] at hc hdec
  have hdiv : p.length / d.gConv.length = n * q := by
    rw [hq, Nat.mul_assoc, Nat.mul_div_cancel_left _ hG]
  rw [hblk, Nat.mul_div_cancel_left _ hn] at hol
  have hout : out = p := by
    apply ext_getD 0 (by rw [hol, hq]; ring)
    exact hov
  subst hout
  obtain ⟨y, hy, hyd, _, _⟩ := symbols_roundtrip (d := d) c' false (by rw [hcl, hblk, ← hdiv]; exact hfit) (fun _ => hcb)
  refine ⟨y, encoder_of (x := c') ?_ hy (outer_off h1 h2 y).1, decoder_of (outer_off h1 h2 y).2 hyd ?_⟩
  · unfold encodeBinary optStage
    rw [h3, h4, h5, h6, h7, h8, hconv]
    simp [bind, Except.bind, hc]
  · unfold decodeBinary decodeBinaryTail optStage
    rw [h3, h4, h5, h6, h7, h8, hconv, hchunk]
    simp [bind, Except.bind, hdec, pure, Except.pure, Except.map]

example : Recovered { bps := .whole 2, constellation := .pam4, conv := true, gConv := ex75, chunkSize := 4 } [1, 0, 0, 1] :=
  ⟨[3, 1, 3, 3], by decide +kernel, by decide +kernel⟩

/-! ### the swapped symbol decoders -/

/-- a constellation with two levels -/
def TwoLevel (c : Constellation) : Prop := c = .ook ∨ c = .nrz

theorem gray_two {c : Constellation} (hc : TwoLevel c) (x : List Int) (hx : IsBinary x) :
    codingGray x c = .ok x ∧ decodingGray x c = .ok x := by
  have h : npTake [(0 : Int), 1] x = .ok x := by
    rw [npTake_ok [(0 : Int), 1] x id (fun v hv => by rcases hx v hv with rfl | rfl <;> rfl)]
    simp
  rcases hc with rfl | rfl
  · exact ⟨rfl, h⟩
  · exact ⟨rfl, h⟩

theorem levels_two {c : Constellation} (hc : TwoLevel c) : ((intLevels c).length : Int) = 2 := by
  rcases hc with rfl | rfl <;> rfl

/-- **C61** (partial: one bit per symbol, a two-level constellation, one binary line code). With both
the Gray and the differential flag on, the decoder inverts the encoder: the Gray code of two levels is
the identity, so exchanging the decoders does no harm. -/
theorem C61_both_flags_two_level_partial (d : CodingData) (st : Stage) (hst : OnlyStage d st) (hg : d.gray = true)
    (hd : d.differential = true) (hc : TwoLevel d.constellation) (hb : d.bps = .whole 1) (ht : st.ternary = false)
    (p : List Int) (hp : IsBinary p) (hne : p ≠ []) : Recovered d p := by
  obtain ⟨x, hx, hl, hbx, hdec⟩ := stage_roundtrip hst p hp hne
  have hx0 : x ≠ [] := by
    intro e
    rw [e] at hl
    have := List.length_pos_of_ne_nil hne
    have h2 : 0 < st.expand := by cases st <;> decide
    have := Nat.mul_pos h2 this
    rw [← hl] at this
    simp at this
  obtain ⟨y, hy, hyd, hy0, hyb⟩ := symbols_roundtrip (d := d) x st.ternary (by unfold SymbolsFit; rw [hb]; left; exact le_rfl) hbx
  have hyb := hyb hb (hbx ht)
  have h2 := levels_two hc
  have hz : IsBinary (codingDifferential y d.constellation) := by
    intro v hv
    have := (C22_code_valid d.constellation y).1 v hv
    omega
  refine ⟨codingDifferential y d.constellation, encoder_of hx hy ?_, decoder_of (y := y) ?_ hyd hdec⟩
  · unfold encodeOuter optStage
    rw [hg, hd]
    simp [bind, Except.bind, (gray_two hc _ hz).1]
  · unfold decodeOuter optStage
    rw [hg, hd]
    have := C22_decode_code_partial d.constellation y (hy0 hx0) (by
      intro v hv
      rw [h2]
      rcases hyb v hv with rfl | rfl <;> decide)
    simp [bind, Except.bind, this, (gray_two hc _ hyb).2]

example : Recovered { bps := .whole 1, constellation := .nrz, gray := true, differential := true, diffManchester := true } [1, 0, 1] :=
  C61_both_flags_two_level_partial _ .diffManchester ⟨rfl, rfl, rfl, rfl, rfl, rfl, rfl⟩ rfl rfl (Or.inr rfl) rfl rfl _
    (by intro x hx; simp at hx; omega) (by simp)

/-- all bits before the last one are zero -/
def ZeroButLast (p : List Int) : Prop := ∀ i, i + 1 < p.length → p.getD i 0 = 0

/-- **C61** violated with only the Gray flag on a two-level constellation: the decoder runs the
differential decoder, and the bits come back unchanged only when all of them before the last are zero. -/
theorem C61_negative_gray_two_level (d : CodingData) (hst : OnlyStage d .none) (hg : d.gray = true)
    (hd : d.differential = false) (hc : TwoLevel d.constellation) (hb : d.bps = .whole 1) (hpn : d.flags.pnInv = false)
    (p : List Int) (hp : IsBinary p) (hne : p ≠ []) : Recovered d p ↔ ZeroButLast p := by
  have henc : encoder id d p = .ok p := by
    refine encoder_of (x := p) (y := p) (encodeBinary_only hst p) ?_ ?_
    · unfold encodeSymbols; rw [hb, hpn]; rfl
    · unfold encodeOuter optStage; rw [hg, hd]; simp [bind, Except.bind, (gray_two hc _ hp).1]
  have hdec : decoder d p = .ok (toRat ((firstDiff p).map (· % 2))) := by
    refine decoder_of (y := (firstDiff p).map (· % 2)) (x := (firstDiff p).map (· % 2)) ?_ ?_ ?_
    · unfold decodeOuter optStage decodingDifferential
      rw [hg, hd, levels_two hc]
      simp [bind, Except.bind, hne]
    · unfold decodeSymbols; rw [hb, hpn]; rfl
    · exact decodeBinary_only hst _ _ rfl
  have key : Recovered d p ↔ (firstDiff p).map (· % 2) = p := by
    unfold Recovered
    constructor
    · rintro ⟨s, h1, h2⟩
      rw [henc] at h1
      cases h1
      rw [hdec] at h2
      exact toRat_inj (Except.ok.inj h2)
    · intro h
      exact ⟨p, henc, by rw [hdec, h]; rfl⟩
  rw [key]
  constructor
  · intro h i hi
    have h1 : ((firstDiff p).map (· % 2)).getD (i + 1) 0 = p.getD (i + 1) 0 := by rw [h]
    rw [getD_map_lt _ 0 0 _ (by rw [firstDiff_length]; exact hi), firstDiff_getD p hi, List.getD_cons_succ] at h1
    rcases binary_getD hp i with e | e
    · exact e
    · rcases binary_getD hp (i + 1) with e' | e' <;> rw [e, e'] at h1 <;> simp at h1
  · intro h
    apply ext_getD 0 (by simp [firstDiff_length])
    intro i hi
    have hi' : i < p.length := by simpa [firstDiff_length] using hi
    rw [getD_map_lt _ 0 0 _ (by rw [firstDiff_length]; exact hi'), firstDiff_getD p hi']
    have hprev : (0 :: p).getD i 0 = 0 := by
      cases i with
      | zero => rfl
      | succ i => rw [List.getD_cons_succ]; exact h i hi'
    rw [hprev, sub_zero]
    rcases binary_getD hp i with e | e <;> rw [e] <;> rfl

example : OnlyStage { bps := .whole 1, constellation := .ook, gray := true } .none ∧ ¬ ZeroButLast [1, 0] :=
  ⟨⟨rfl, rfl, rfl, rfl, rfl, rfl, rfl⟩, fun h => by simpa using h 0 (by decide)⟩

/-- **C61** violated with only the differential flag on a two-level constellation: the decoder runs the
Gray decoder (the identity) and the differential code is never undone. -/
theorem C61_negative_differential_two_level (d : CodingData) (hst : OnlyStage d .none) (hg : d.gray = false)
    (hd : d.differential = true) (hc : TwoLevel d.constellation) (hb : d.bps = .whole 1) (hpn : d.flags.pnInv = false)
    (p : List Int) (hp : IsBinary p) : Recovered d p ↔ ZeroButLast p := by
  have h2 := levels_two hc
  have hz : IsBinary (codingDifferential p d.constellation) := by
    intro v hv
    have := (C22_code_valid d.constellation p).1 v hv
    omega
  have henc : encoder id d p = .ok (codingDifferential p d.constellation) := by
    refine encoder_of (x := p) (y := p) (encodeBinary_only hst p) ?_ ?_
    · unfold encodeSymbols; rw [hb, hpn]; rfl
    · unfold encodeOuter optStage; rw [hg, hd]; simp [bind, Except.bind]
  have hdec : decoder d (codingDifferential p d.constellation) = .ok (toRat (codingDifferential p d.constellation)) := by
    refine decoder_of (y := codingDifferential p d.constellation) (x := codingDifferential p d.constellation) ?_ ?_ ?_
    · unfold decodeOuter optStage
      rw [hg, hd]
      simp [bind, Except.bind, (gray_two hc _ hz).2]
    · unfold decodeSymbols; rw [hb, hpn]; rfl
    · exact decodeBinary_only hst _ _ rfl
  have key : Recovered d p ↔ codingDifferential p d.constellation = p := by
    unfold Recovered
    constructor
    · rintro ⟨s, h1, h2⟩
      rw [henc] at h1
      cases h1
      rw [hdec] at h2
      exact toRat_inj (Except.ok.inj h2)
    · intro h
      exact ⟨_, henc, by rw [hdec, h]; rfl⟩
  rw [key]
  obtain ⟨hlen, hrec⟩ := (C22_code_valid d.constellation p).2
  rw [h2] at hrec
  constructor
  · intro h i hi
    have h1 := hrec (i + 1) hi
    rw [h, if_neg (by omega), Nat.add_sub_cancel] at h1
    rcases binary_getD hp i with e | e
    · exact e
    · rcases binary_getD hp (i + 1) with e' | e' <;> rw [e, e'] at h1 <;> simp at h1
  · intro h
    have hpre : ∀ n, n < p.length → pre p n = 0 := by
      intro n
      induction n with
      | zero => intro _; exact pre_zero p
      | succ n ih => intro hn; rw [pre_succ, ih (by omega), h n hn]; rfl
    apply ext_getD 0 hlen
    intro i hi
    rw [hlen] at hi
    rw [codingDifferential_getD p _ hi, pre_succ, hpre i hi, zero_add, h2]
    rcases binary_getD hp i with e | e <;> rw [e] <;> rfl

/-- Gray code of four levels -/
def gray4 (x : Int) : Int := if x = 2 then 3 else if x = 3 then 2 else x

theorem gray_pam4 (x : List Int) (hx : ∀ v ∈ x, 0 ≤ v ∧ v < 4) :
    codingGray x .pam4 = .ok (x.map gray4) ∧ decodingGray x .pam4 = .ok (x.map gray4) := by
  have h : npTake [(0 : Int), 1, 3, 2] x = .ok (x.map gray4) := by
    apply npTake_ok
    intro v hv
    obtain ⟨h0, h1⟩ := hx v hv
    interval_cases v <;> rfl
  exact ⟨h, h⟩

theorem gray4_range {v : Int} (h : 0 ≤ v ∧ v < 4) : 0 ≤ gray4 v ∧ gray4 v < 4 := by
  obtain ⟨h0, h1⟩ := h
  interval_cases v <;> decide

theorem lt4_getD {x : List Int} (hx : ∀ v ∈ x, 0 ≤ v ∧ v < 4) (i : ℕ) : 0 ≤ x.getD i 0 ∧ x.getD i 0 < 4 := by
  rcases Nat.lt_or_ge i x.length with h | h
  · rw [getD_of_lt 0 _ h]; exact hx _ (List.getElem_mem _)
  · rw [getD_of_le 0 _ h]; decide

/-- When PAM4 bits come back unchanged, the symbols come back unchanged. -/
theorem pam4_symbols {d : CodingData} (hst : OnlyStage d .none) (hb : d.bps = .whole 2) {p : List Int}
    (hp : IsBinary p) (hlen : p.length ≠ 2) {s z : List Int} (sy : List Int)
    (hsy : bin2symbol p 4 d.flags = .ok sy) (he : encodeOuter d sy = .ok s) (hz : decodeOuter d s = .ok z)
    (hzr : ∀ v ∈ z, 0 ≤ v ∧ v < 4) (hzl : z.length = sy.length) (hev : p.length % 2 = 0)
    (hr : Recovered d p) : z = sy := by
  have henc : encoder id d p = .ok s := by
    refine encoder_of (x := p) (y := sy) (encodeBinary_only hst p) ?_ he
    unfold encodeSymbols
    rw [hb]
    exact hsy
  obtain ⟨s', h1, h2⟩ := hr
  rw [henc] at h1
  cases h1
  obtain ⟨sy', e1, e2, _⟩ := C14_symbol_range p hp 2 (by omega) d.flags
  have e : sy' = sy := by rw [show (2 : ℕ) ^ 2 = 4 from rfl, hsy] at e1; exact (Except.ok.inj e1).symm
  rw [e] at e2
  unfold decoder at h2
  rw [hz] at h2
  simp only [bind, Except.bind] at h2
  have h13 := C13_symbols_roundtrip_partial z 2 (by omega) hzr d.flags (by right; left; omega)
  cases hs : symbol2bin z (2 ^ 2) d.flags with
  | error er =>
    rw [hs] at h13
    simp [bind, Except.bind] at h13
  | ok b =>
    rw [hs] at h13
    simp only [bind, Except.bind] at h13
    have hds : decodeSymbols d z = .ok b := by
      unfold decodeSymbols
      rw [hb]
      exact hs
    rw [hds] at h2
    simp only at h2
    rw [decodeBinary_only hst b b rfl] at h2
    have hbp : b = p := toRat_inj (Except.ok.inj h2)
    rw [hbp, show (2 : ℕ) ^ 2 = 4 from rfl, hsy] at h13
    exact (Except.ok.inj h13).symm

/-- **C61** violated with only the Gray flag on PAM4 (the shape of the shipped configuration): if the
bits come back unchanged, every symbol except the last three was zero. -/
theorem C61_negative_gray_pam4 (d : CodingData) (hst : OnlyStage d .none) (hb : d.bps = .whole 2)
    (hc : d.constellation = .pam4) (hg : d.gray = true) (hd : d.differential = false)
    (p : List Int) (hp : IsBinary p) (hev : p.length % 2 = 0) (hlen : 4 ≤ p.length) :
    ∃ sy, bin2symbol p 4 d.flags = .ok sy ∧ sy.length = p.length / 2 ∧
      (Recovered d p → ∀ i, i + 3 < sy.length → sy.getD i 0 = 0) := by
  obtain ⟨sy, hsy, hsl, hsr⟩ := C14_symbol_range p hp 2 (by omega) d.flags
  refine ⟨sy, hsy, hsl, fun hr => ?_⟩
  have hsr' : ∀ v ∈ sy, 0 ≤ v ∧ v < 4 := fun v hv => by simpa using hsr v hv
  have hne : sy.map gray4 ≠ [] := by
    intro e
    have : sy.length = 0 := by simpa using congrArg List.length e
    omega
  have hz := pam4_symbols (z := (firstDiff (sy.map gray4)).map (· % 4)) (s := sy.map gray4) hst hb hp (by omega) sy hsy
    (by unfold encodeOuter optStage; rw [hg, hd, hc]; simp [bind, Except.bind, (gray_pam4 sy hsr').1])
    (by
      unfold decodeOuter optStage decodingDifferential
      rw [hg, hd, hc]
      simp only [bind, Except.bind, if_true, if_neg hne]
      rfl)
    (by
      intro v hv
      rw [List.mem_map] at hv
      obtain ⟨w, _, rfl⟩ := hv
      omega)
    (by simp [firstDiff_length]) hev hr
  have step : ∀ i, i + 1 < sy.length →
      sy.getD (i + 1) 0 = (gray4 (sy.getD (i + 1) 0) - gray4 (sy.getD i 0)) % 4 := by
    intro i hi
    have h1 : sy.getD (i + 1) 0 = ((firstDiff (sy.map gray4)).map (· % 4)).getD (i + 1) 0 := by rw [hz]
    rw [getD_map_lt _ 0 0 _ (by simpa [firstDiff_length] using hi), firstDiff_getD _ (by simpa using hi),
      List.getD_cons_succ, getD_map_lt _ 0 0 _ hi, getD_map_lt _ 0 0 _ (by omega)] at h1
    exact h1
  have dec : ∀ i, i + 1 < sy.length → sy.getD i 0 ≤ max (sy.getD (i + 1) 0 - 1) 0 := by
    intro i hi
    have h := step i hi
    have ha := lt4_getD hsr' i
    have hb' := lt4_getD hsr' (i + 1)
    generalize sy.getD i 0 = a at *
    generalize sy.getD (i + 1) 0 = b at *
    obtain ⟨a0, a1⟩ := ha
    obtain ⟨b0, b1⟩ := hb'
    interval_cases a <;> interval_cases b <;> revert h <;> decide
  intro i hi
  have h1 := dec i (by omega)
  have h2 := dec (i + 1) (by omega)
  have h3 := dec (i + 2) (by omega)
  have h4 := lt4_getD hsr' (i + 3)
  have h5 := lt4_getD hsr' i
  simp only [show i + 1 + 1 = i + 2 from rfl, show i + 2 + 1 = i + 3 from rfl] at h2 h3
  omega

/-- **C61** violated with only the differential flag on PAM4: if the bits come back unchanged, every
symbol except the last three was zero. -/
theorem C61_negative_differential_pam4 (d : CodingData) (hst : OnlyStage d .none) (hb : d.bps = .whole 2)
    (hc : d.constellation = .pam4) (hg : d.gray = false) (hd : d.differential = true)
    (p : List Int) (hp : IsBinary p) (hev : p.length % 2 = 0) (hlen : 4 ≤ p.length) :
    ∃ sy, bin2symbol p 4 d.flags = .ok sy ∧ sy.length = p.length / 2 ∧
      (Recovered d p → ∀ i, i + 3 < sy.length → sy.getD i 0 = 0) := by
  obtain ⟨sy, hsy, hsl, hsr⟩ := C14_symbol_range p hp 2 (by omega) d.flags
  refine ⟨sy, hsy, hsl, fun hr => ?_⟩
  obtain ⟨hcr, hcl, hcrec⟩ := C22_code_valid .pam4 sy
  have hcr' : ∀ v ∈ codingDifferential sy .pam4, 0 ≤ v ∧ v < 4 := hcr
  have hz := pam4_symbols (z := (codingDifferential sy .pam4).map gray4) (s := codingDifferential sy .pam4) hst hb hp
    (by omega) sy hsy
    (by unfold encodeOuter optStage; rw [hg, hd, hc]; simp [bind, Except.bind])
    (by unfold decodeOuter optStage; rw [hg, hd, hc]; simp [bind, Except.bind, (gray_pam4 _ hcr').2])
    (by
      intro v hv
      rw [List.mem_map] at hv
      obtain ⟨w, hw, rfl⟩ := hv
      exact gray4_range (hcr' w hw))
    (by simp [hcl]) hev hr
  set c := codingDifferential sy .pam4 with hcdef
  have val : ∀ i, i < sy.length → sy.getD i 0 = gray4 (c.getD i 0) := by
    intro i hi
    have h1 : sy.getD i 0 = (c.map gray4).getD i 0 := by rw [hz]
    rwa [getD_map_lt _ 0 0 _ (by rw [hcl]; exact hi)] at h1
  have step : ∀ i, i + 1 < sy.length → c.getD (i + 1) 0 = (gray4 (c.getD (i + 1) 0) + c.getD i 0) % 4 := by
    intro i hi
    have h1 := hcrec (i + 1) hi
    rw [if_neg (by omega), Nat.add_sub_cancel, val (i + 1) hi] at h1
    exact h1
  have dec : ∀ i, i + 1 < sy.length → gray4 (c.getD i 0) ≤ max (gray4 (c.getD (i + 1) 0) - 1) 0 ∨
      gray4 (c.getD i 0) = 2 ∧ gray4 (c.getD (i + 1) 0) = 3 ∨ gray4 (c.getD i 0) = 1 ∧ gray4 (c.getD (i + 1) 0) = 2 := by
    intro i hi
    have h := step i hi
    have ha := lt4_getD hcr' i
    have hb' := lt4_getD hcr' (i + 1)
    generalize c.getD i 0 = a at *
    generalize c.getD (i + 1) 0 = b at *
    obtain ⟨a0, a1⟩ := ha
    obtain ⟨b0, b1⟩ := hb'
    interval_cases a <;> interval_cases b <;> revert h <;> decide
  intro i hi
  have h1 := dec i (by omega)
  have h2 := dec (i + 1) (by omega)
  have h3 := dec (i + 2) (by omega)
  have h4 := gray4_range (lt4_getD hcr' (i + 3))
  have h5 := gray4_range (lt4_getD hcr' i)
  rw [val i (by omega)]
  simp only [show i + 1 + 1 = i + 2 from rfl, show i + 2 + 1 = i + 3 from rfl] at h2 h3
  omega

/-- **C61** violated with both flags on PAM4 (decoders in the wrong order): if the bits come back
unchanged, at most two symbols were different from zero. -/
theorem C61_negative_both_flags_pam4 (d : CodingData) (hst : OnlyStage d .none) (hb : d.bps = .whole 2)
    (hc : d.constellation = .pam4) (hg : d.gray = true) (hd : d.differential = true)
    (p : List Int) (hp : IsBinary p) (hev : p.length % 2 = 0) (hlen : 4 ≤ p.length) :
    ∃ sy, bin2symbol p 4 d.flags = .ok sy ∧ sy.length = p.length / 2 ∧
      (Recovered d p → ∀ i j k, i < j → j < k → k < sy.length →
        sy.getD i 0 = 0 ∨ sy.getD j 0 = 0 ∨ sy.getD k 0 = 0) := by
  obtain ⟨sy, hsy, hsl, hsr⟩ := C14_symbol_range p hp 2 (by omega) d.flags
  refine ⟨sy, hsy, hsl, fun hr => ?_⟩
  have hsr' : ∀ v ∈ sy, 0 ≤ v ∧ v < 4 := fun v hv => by simpa using hsr v hv
  obtain ⟨hcr, hcl, hcrec⟩ := C22_code_valid .pam4 sy
  have hcr' : ∀ v ∈ codingDifferential sy .pam4, 0 ≤ v ∧ v < 4 := hcr
  have hne : (codingDifferential sy .pam4).map gray4 ≠ [] := by
    intro e
    have : (codingDifferential sy .pam4).length = 0 := by simpa using congrArg List.length e
    omega
  set c := codingDifferential sy .pam4 with hcdef
  set f := (firstDiff (c.map gray4)).map (· % 4) with hf
  have hfr : ∀ v ∈ f, 0 ≤ v ∧ v < 4 := by
    intro v hv
    rw [hf, List.mem_map] at hv
    obtain ⟨w, _, rfl⟩ := hv
    omega
  have hfl : f.length = sy.length := by simp [hf, firstDiff_length, hcl]
  have hz := pam4_symbols (z := f.map gray4) (s := c.map gray4) hst hb hp (by omega) sy hsy
    (by unfold encodeOuter optStage; rw [hg, hd, hc]; simp [bind, Except.bind, ← hcdef, (gray_pam4 c hcr').1])
    (by
      unfold decodeOuter optStage decodingDifferential
      rw [hg, hd, hc]
      simp only [bind, Except.bind, if_true, if_neg hne]
      exact (gray_pam4 f hfr).2)
    (by
      intro v hv
      rw [List.mem_map] at hv
      obtain ⟨w, hw, rfl⟩ := hv
      exact gray4_range (hfr w hw))
    (by simp [hfl]) hev hr
  have val : ∀ i, i < sy.length → sy.getD i 0 = gray4 (f.getD i 0) := by
    intro i hi
    have h1 : sy.getD i 0 = (f.map gray4).getD i 0 := by rw [hz]
    rwa [getD_map_lt _ 0 0 _ (by rw [hfl]; exact hi)] at h1
  -- rank of a coded symbol: 0, then 2 or 3, then 1
  obtain ⟨rank, hrank⟩ : ∃ r : Int → Int, r = fun x => if x = 0 then 0 else if x = 1 then 2 else 1 := ⟨_, rfl⟩
  have hrb : ∀ x, 0 ≤ rank x ∧ rank x ≤ 2 := by
    intro x; rw [hrank]; simp only; split_ifs <;> decide
  have step : ∀ i, i + 1 < sy.length → rank (c.getD i 0) ≤ rank (c.getD (i + 1) 0) ∧
      (sy.getD (i + 1) 0 ≠ 0 → rank (c.getD i 0) < rank (c.getD (i + 1) 0)) := by
    intro i hi
    have h1 := val (i + 1) hi
    rw [hf, getD_map_lt _ 0 0 _ (by simpa [firstDiff_length, hcl] using hi),
      firstDiff_getD _ (by simpa [hcl] using hi), List.getD_cons_succ,
      getD_map_lt _ 0 0 _ (by rw [hcl]; exact hi), getD_map_lt _ 0 0 _ (by rw [hcl]; omega)] at h1
    have h2 := hcrec (i + 1) hi
    rw [if_neg (by omega), Nat.add_sub_cancel, h1] at h2
    rw [h1]
    have ha := lt4_getD hcr' i
    have hb' := lt4_getD hcr' (i + 1)
    generalize c.getD i 0 = a at *
    generalize c.getD (i + 1) 0 = b at *
    obtain ⟨a0, a1⟩ := ha
    obtain ⟨b0, b1⟩ := hb'
    rw [hrank]
    revert h2
    clear h1
    interval_cases a <;> interval_cases b <;> decide
  have mono : ∀ i m, i + m < sy.length → rank (c.getD i 0) ≤ rank (c.getD (i + m) 0) := by
    intro i m
    induction m with
    | zero => intro _; exact le_rfl
    | succ m ih => intro h; exact le_trans (ih (by omega)) (step (i + m) (by omega)).1
  have first : sy.getD 0 0 ≠ 0 → 1 ≤ rank (c.getD 0 0) := by
    intro h
    have h2 := hcrec 0 (by omega)
    rw [if_pos rfl, add_zero] at h2
    have h3 := lt4_getD hsr' 0
    have : c.getD 0 0 ≠ 0 := by
      rw [h2]
      generalize sy.getD 0 0 = a at *
      simp only [intLevels, List.length_cons, List.length_nil]
      omega
    rw [hrank]
    simp only [if_neg this]
    split_ifs <;> decide
  intro i j k hij hjk hk
  by_contra hcon
  have hi : sy.getD i 0 ≠ 0 := fun e => hcon (Or.inl e)
  have hj : sy.getD j 0 ≠ 0 := fun e => hcon (Or.inr (Or.inl e))
  have hk' : sy.getD k 0 ≠ 0 := fun e => hcon (Or.inr (Or.inr e))
  have r1 : 1 ≤ rank (c.getD i 0) := by
    cases i with
    | zero => exact first hi
    | succ i =>
      have := (step i (by omega)).2 hi
      have := (hrb (c.getD i 0)).1
      omega
  have r2 : rank (c.getD i 0) < rank (c.getD j 0) := by
    obtain ⟨m, rfl⟩ : ∃ m, j = i + m + 1 := ⟨j - i - 1, by omega⟩
    exact lt_of_le_of_lt (mono i m (by omega)) ((step (i + m) (by omega)).2 hj)
  have r3 : rank (c.getD j 0) < rank (c.getD k 0) := by
    obtain ⟨m, rfl⟩ : ∃ m, k = j + m + 1 := ⟨k - j - 1, by omega⟩
    exact lt_of_le_of_lt (mono j m (by omega)) ((step (j + m) (by omega)).2 hk')
  have := (hrb (c.getD k 0)).2
  omega

example : OnlyStage { bps := .whole 2, constellation := .pam4, gray := true } .none ∧
    bin2symbol [1, 0, 0, 1, 0, 0, 1, 1] 4 {} = .ok [1, 2, 0, 3] := ⟨⟨rfl, rfl, rfl, rfl, rfl, rfl, rfl⟩, by decide⟩

/-- **C61** violated by the shipped configuration (config_file.py 14-19, constants.py 7-21: PAM4, Gray
code, convolutional code, chunks of 64 bits) on the very first PRBS13 chunk. -/
theorem C61_negative_shipped :
    let d : CodingData := { bps := .whole 2, constellation := .pam4, chunkSize := 64, gray := true, conv := true,
                            gConv := [[[1, 0], [0, 1]]], feedback := some [some [1, 1]], useFeedback := some [[0, 1]] }
    ∃ chunk seed s out, prbsGenerator (getPolynomial .prbs13) (List.replicate 13 1) 64 = .ok (chunk, seed) ∧
      encoder id d chunk = .ok s ∧ decoder d s = .ok out ∧ out ≠ chunk.map (fun (x : Int) => (x : ℚ)) := by
  intro d
  obtain ⟨r, hr⟩ : ∃ r, prbsGenerator (getPolynomial .prbs13) (List.replicate 13 1) 64 = .ok r := ⟨_, rfl⟩
  have key : (do
      let r ← prbsGenerator (getPolynomial .prbs13) (List.replicate 13 1) 64
      let s ← encoder id d r.1
      let out ← decoder d s
      return decide (out = r.1.map (fun (x : Int) => (x : ℚ)))) = (.ok false : Py Bool) := by
    decide +kernel
  rw [hr] at key
  simp only [bind, Except.bind] at key
  cases hs : encoder id d r.1 with
  | error e => rw [hs] at key; simp at key
  | ok s =>
    rw [hs] at key
    simp only at key
    cases ho : decoder d s with
    | error e => rw [ho] at key; simp at key
    | ok out =>
      rw [ho] at key
      simp only [pure, Except.pure, Except.ok.injEq, decide_eq_false_iff_not] at key
      exact ⟨r.1, r.2, s, out, hr, hs, ho, key⟩

/-- **C61** violated for three levels with the number of bits per symbol computed as in constants.py
(`log2(3)`): the encoder always raises, whatever the other settings. -/
theorem C61_negative_pam3 (d : CodingData) (hb : d.bps = .log2of3) (p : List Int) : ∃ e, encoder id d p = .error e := by
  unfold encoder
  cases h : encodeBinary id d p with
  | error e => exact ⟨e, rfl⟩
  | ok x =>
    simp only [bind, Except.bind]
    unfold encodeSymbols
    rw [hb]
    simp only
    rw [C14_rejects_partial x 3 (by omega) (by
      intro b hb1 h3
      rcases Nat.lt_or_ge b 2 with h | h
      · have : b = 1 := by omega
        subst this; omega
      · have := Nat.pow_le_pow_right (show 0 < 2 by omega) h
        omega)]
    exact ⟨_, rfl⟩

theorem toRat_of_den {y : List ℚ} (h : y.all (fun q => q.den = 1) = true) : toRat (y.map Rat.num) = y := by
  unfold toRat
  rw [List.map_map]
  conv_rhs => rw [← List.map_id y]
  apply List.map_congr_left
  intro q hq
  rw [List.all_eq_true] at h
  have := h q hq
  exact Rat.den_eq_one_iff q |>.1 (by simpa using this)

/-- **C61** violated with two line codes on: the decoders run in the order of the encoders instead of the
reverse order. With the binary differential code and the Manchester code no bit is ever decoded as one:
every value returned is 0 or 1/2. -/
theorem C61_negative_two_stages (d : CodingData) (h1 : d.binDifferential = true) (h2 : d.manchester = true)
    (hoff : d.gray = false ∧ d.differential = false ∧ d.bipolar = false ∧ d.mlt3 = false ∧
      d.diffManchester = false ∧ d.linear = false ∧ d.conv = false)
    (hb : d.bps = .whole 1) (p : List Int) (hne : p ≠ []) :
    ∃ s out, encoder id d p = .ok s ∧ decoder d s = .ok out ∧ out.length = p.length ∧
      ∀ i, i < p.length → out.getD i 0 = 0 ∨ out.getD i 0 = 1 / 2 := by
  obtain ⟨g1, g2, h3, h4, h5, h6, h7⟩ := hoff
  have hbin : IsBinary (codingDifferential p .ook) := by
    intro v hv
    have := (C22_code_valid .ook p).1 v hv
    simp [intLevels] at this
    omega
  have hxl := codingDifferential_length p .ook
  obtain ⟨m, hm, hml, hmb, _⟩ := C24_roundtrip _ hbin
  obtain ⟨m', hm', hcell⟩ := C24_cells _ hbin
  have e : m' = m := by rw [hm] at hm'; exact (Except.ok.inj hm').symm
  subst e
  have hpos := List.length_pos_of_ne_nil hne
  have hm0 : m' ≠ [] := by
    intro e0
    rw [e0, hxl] at hml
    simp only [List.length_nil] at hml
    omega
  obtain ⟨y, hy, hyd, _, _⟩ := symbols_roundtrip (d := d) m' false (by unfold SymbolsFit; rw [hb]; left; exact le_rfl) (fun _ => hmb)
  obtain ⟨r, hr⟩ : ∃ r, r = (firstDiff m').map (· % 2) := ⟨_, rfl⟩
  have hdd : decodingDifferential m' .ook = .ok r := by
    unfold decodingDifferential
    rw [if_neg hm0, hr]
    rfl
  have hrb : IsBinary r := by
    intro v hv
    rw [hr, List.mem_map] at hv
    obtain ⟨w, _, rfl⟩ := hv
    omega
  have hrl : r.length = 2 * p.length := by rw [hr, List.length_map, firstDiff_length, hml, hxl]
  obtain ⟨out, ho, hol, hov⟩ := C24_received r hrb (by omega)
  have hlen : out.length = p.length := by omega
  refine ⟨y, out, encoder_of (x := m') ?_ hy (outer_off g1 g2 y).1, decoder_of (outer_off g1 g2 y).2 hyd ?_, hlen, ?_⟩
  · unfold encodeBinary optStage
    rw [h1, h2, h3, h4, h5, h6, h7]
    simp [bind, Except.bind, hm]
  · unfold decodeBinary
    rw [h1, h2]
    have ht := decodeBinaryTail_off (d := d) h3 h4 h5 h6 h7 (out.map Rat.num)
    simp only [optStage, if_true, bind, Except.bind, hdd, ho, ht, pure, Except.pure, h3, h4, h5, h6, h7]
    by_cases hden : out.all (fun q => q.den = 1) = true
    · rw [if_pos hden]
      exact congrArg Except.ok (toRat_of_den hden)
    · rw [if_neg hden]
      rfl
  · intro i hi
    have hodd : r.getD (2 * i + 1) 0 = 1 := by
      rw [hr, getD_map_lt _ 0 0 _ (by rw [firstDiff_length]; omega), firstDiff_getD _ (by omega), List.getD_cons_succ]
      obtain ⟨c1, c2⟩ := hcell i (by omega)
      omega
    obtain ⟨o1, o2⟩ := hov i (by omega)
    rcases binary_getD hrb (2 * i) with e | e
    · left
      rw [o2 (by rw [e, hodd]; decide), e]
      rfl
    · right
      exact o1.2 (by rw [e, hodd])

example : ∃ s, encoder id { bps := .whole 1, constellation := .ook, binDifferential := true, manchester := true } [1, 0, 1] = .ok s ∧
    decoder { bps := .whole 1, constellation := .ook, binDifferential := true, manchester := true } s = .ok [1 / 2, 1 / 2, 0] :=
  ⟨[1, 0, 1, 0, 0, 1], by decide +kernel, by decide +kernel⟩

/-! ## C62 convergence -/

theorem digitalStage_idle (g : Bool) (o : ChunkObs) (s : RxState) (h : s.converge = false) : digitalStage g o s = .ok s := by
  unfold digitalStage
  rw [h]
  rfl

theorem mseExceeds_self (m : Option ℚ) : mseExceeds m m = false := by
  cases m <;> simp [mseExceeds]

/-- One chunk with the LMS adaptation switched on leaves it switched on, whatever the errors. -/
theorem digitalStage_lms (o : ChunkObs) (s : RxState) (hc : s.converge = true) (hl : s.lms = true) (hd : s.done = false) :
    ∃ s', digitalStage true o s = .ok s' ∧ s'.converge = true ∧ s'.lms = true ∧ s'.done = false ∧ s'.mseLast = o.mse := by
  unfold digitalStage
  rw [hc]
  have hl' : (cdrStage o s).lms = true := by unfold cdrStage; split_ifs <;> exact hl
  have hc' : (cdrStage o s).converge = true := by unfold cdrStage; split_ifs <;> exact hc
  have hd' : (cdrStage o s).done = false := by unfold cdrStage; split_ifs <;> exact hd
  unfold lmsStage
  rw [hl']
  simp only [if_true, bind, Except.bind, pure, Except.pure, mseExceeds_self, Bool.false_eq_true, if_false, Bool.not_true,
    Bool.and_false]
  exact ⟨_, rfl, hc', rfl, hd', rfl⟩

/-- **C62** violated: even with a working gradient function, the convergence loop never ends. For every
sequence of phase steps and of mean squared errors (constant, settling, oscillating, NaN, ...), after any
number of chunks the loop is still running: the stored error is overwritten before it is compared with
itself, so the LMS adaptation is never declared converged. -/
theorem C62_negative_never_done (obs : ℕ → ChunkObs) (fuel : ℕ) (s : RxState) (hc : s.converge = false)
    (hd : s.done = false) : performConvergence true obs fuel s = .ok none := by
  have key : ∀ fuel k s, s.converge = true → s.lms = true → s.done = false →
      convergenceLoop true obs fuel k s = .ok none := by
    intro fuel
    induction fuel with
    | zero => intro k s _ _ h3; unfold convergenceLoop; rw [h3]; rfl
    | succ fuel ih =>
      intro k s h1 h2 h3
      unfold convergenceLoop
      obtain ⟨s', e1, e2, e3, e4, _⟩ := digitalStage_lms (obs k) s h1 h2 h3
      rw [h3, e1]
      exact ih (k + 1) s' e2 e3 e4
  unfold performConvergence
  rw [digitalStage_idle true _ s hc]
  exact key fuel 1 _ rfl rfl hd

/-- **C62** (clock recovery while the LMS adaptation is on). From the start of the convergence on, every chunk moves the
sampling phase by its Mueller-Muller step, up to and including the first chunk whose step is zero; from then on the phase is
kept. -/
theorem C62_clock_recovery (obs : ℕ → ChunkObs) (s : RxState) (hd : s.done = false) :
    ∃ st : ℕ → RxState, st 0 = startConvergence s ∧ (∀ k, digitalStage true (obs k) (st k) = .ok (st (k + 1))) ∧
      ∀ k, (st k).cdr = decide (∀ j < k, (obs j).mmStep ≠ 0) ∧ (st k).maxPhase = s.maxPhase ∧
        (st (k + 1)).phase = if ∀ j < k, (obs j).mmStep ≠ 0 then ((st k).phase + (obs k).mmStep) % s.maxPhase else (st k).phase := by
  have step : ∀ (o : ChunkObs) (s : RxState), s.converge = true → s.lms = true → s.done = false →
      digitalStage true o s = .ok { cdrStage o s with mseLast := o.mse } := by
    intro o s hc hl hd
    have hl' : (cdrStage o s).lms = true := by unfold cdrStage; split_ifs <;> exact hl
    unfold digitalStage lmsStage
    rw [hc, hl']
    simp only [if_true, bind, Except.bind, pure, Except.pure, mseExceeds_self, Bool.false_eq_true, if_false, Bool.not_true,
      Bool.and_false]
    rw [hl']
  obtain ⟨st, h0, hs⟩ : ∃ st : ℕ → RxState, st 0 = startConvergence s ∧
      ∀ k, st (k + 1) = { cdrStage (obs k) (st k) with mseLast := (obs k).mse } :=
    ⟨fun k => Nat.rec (startConvergence s) (fun k x => { cdrStage (obs k) x with mseLast := (obs k).mse }) k, rfl, fun _ => rfl⟩
  have inv : ∀ k, (st k).converge = true ∧ (st k).lms = true ∧ (st k).done = false ∧ (st k).maxPhase = s.maxPhase ∧
      (st k).cdr = decide (∀ j < k, (obs j).mmStep ≠ 0) := by
    intro k
    induction k with
    | zero => rw [h0]; exact ⟨rfl, rfl, hd, rfl, by simp [startConvergence]⟩
    | succ k ih =>
      obtain ⟨i1, i2, i3, i4, i5⟩ := ih
      rw [hs]
      unfold cdrStage
      have hsplit : (∀ j < k + 1, (obs j).mmStep ≠ 0) ↔ (∀ j < k, (obs j).mmStep ≠ 0) ∧ (obs k).mmStep ≠ 0 := by
        constructor
        · exact fun h => ⟨fun j hj => h j (by omega), h k (by omega)⟩
        · rintro ⟨h1, h2⟩ j hj
          rcases Nat.lt_succ_iff_lt_or_eq.1 hj with h | rfl
          · exact h1 j h
          · exact h2
      by_cases hall : ∀ j < k, (obs j).mmStep ≠ 0
      · rw [decide_eq_true hall] at i5
        rw [if_pos i5]
        refine ⟨i1, i2, i3, i4, ?_⟩
        by_cases hz : (obs k).mmStep = 0
        · rw [decide_eq_false (by rw [hsplit]; exact fun h => h.2 hz)]
          simp [hz]
        · rw [decide_eq_true (hsplit.2 ⟨hall, hz⟩)]
          simp [hz, i5]
      · rw [decide_eq_false hall] at i5
        rw [if_neg (by rw [i5]; decide)]
        refine ⟨i1, i2, i3, i4, ?_⟩
        rw [decide_eq_false (by rw [hsplit]; exact fun h => hall h.1)]
        exact i5
  refine ⟨st, h0, fun k => ?_, fun k => ⟨(inv k).2.2.2.2, (inv k).2.2.2.1, ?_⟩⟩
  · rw [step _ _ (inv k).1 (inv k).2.1 (inv k).2.2.1, hs]
  · rw [hs]
    unfold cdrStage
    obtain ⟨-, -, -, i4, i5⟩ := inv k
    by_cases hall : ∀ j < k, (obs j).mmStep ≠ 0
    · rw [decide_eq_true hall] at i5
      rw [if_pos i5, if_pos hall, i4]
    · rw [decide_eq_false hall] at i5
      rw [if_neg (by rw [i5]; decide), if_neg hall]

/-- steps 1, -2, 0, 5 from phase 0 of 8: the phase goes to 1, 7 and stays there -/
example : let obs : ℕ → ChunkObs := fun k => ⟨[1, -2, 0, 5].getD k 0, none⟩
    (do let a ← digitalStage true (obs 0) (startConvergence { phase := 0, maxPhase := 8 })
        let b ← digitalStage true (obs 1) a
        let c ← digitalStage true (obs 2) b
        let d ← digitalStage true (obs 3) c
        return [a.phase, b.phase, c.phase, d.phase] : Py (List Int)) = .ok [1, 7, 7, 7] := by decide +kernel

/-- **C62** violated, as shipped: the gradient function `cdsp.rx.lms_grad` does not exist, so the first
chunk of the loop raises AttributeError. -/
theorem C62_negative_attribute_error (obs : ℕ → ChunkObs) (fuel : ℕ) (s : RxState) (hc : s.converge = false)
    (hd : s.done = false) : performConvergence false obs (fuel + 1) s = .error .attributeError := by
  unfold performConvergence
  rw [digitalStage_idle false _ s hc]
  simp only [bind, Except.bind]
  unfold convergenceLoop
  rw [if_neg (by show ¬ s.done = true; rw [hd]; decide)]
  have : digitalStage false (obs 1) (startConvergence s) = .error .attributeError := by
    unfold digitalStage
    have hl' : (cdrStage (obs 1) (startConvergence s)).lms = true := by unfold cdrStage startConvergence; split_ifs <;> rfl
    rw [if_pos (show (startConvergence s).converge = true from rfl)]
    unfold lmsStage
    rw [hl']
    rfl
  rw [this]
  rfl

/-- total phase movement of the first `n` chunks from chunk `k` on -/
def phaseSum (obs : ℕ → ChunkObs) (k : ℕ) : ℕ → Int
  | 0 => 0
  | n + 1 => phaseSum obs k n + (obs (k + n)).mmStep

/-- **C62** (partial: clock recovery alone, i.e. with the LMS bit off). The loop ends exactly at the first
chunk whose Mueller-Muller step is zero, and the sampling phase has then moved by the sum of the steps,
modulo the oversampling ratio. -/
theorem C62_cdr_only_partial (g : Bool) (obs : ℕ → ChunkObs) (n : ℕ) : ∀ (k fuel : ℕ) (s : RxState),
    s.converge = true → s.cdr = true → s.lms = false → s.done = false → 0 < s.maxPhase →
    0 ≤ s.phase → s.phase < s.maxPhase →
    (∀ i, i < n → (obs (k + i)).mmStep ≠ 0) →
    (fuel ≤ n → convergenceLoop g obs fuel k s = .ok none) ∧
    ((obs (k + n)).mmStep = 0 → n < fuel → ∃ s', convergenceLoop g obs fuel k s = .ok (some (k + n + 1, s')) ∧
      s'.done = true ∧ s'.converge = false ∧ s'.phase = (s.phase + phaseSum obs k n) % s.maxPhase) := by
  have shift : ∀ (k n : ℕ), phaseSum obs k (n + 1) = (obs k).mmStep + phaseSum obs (k + 1) n := by
    intro k n
    induction n with
    | zero => simp [phaseSum]
    | succ n ih =>
      rw [phaseSum, ih, phaseSum, show k + (n + 1) = k + 1 + n by omega]
      ring
  induction n with
  | zero =>
    intro k fuel s hc hcdr hl hd hm hp0 hp1 _
    constructor
    · intro hf
      have : fuel = 0 := by omega
      subst this
      unfold convergenceLoop
      rw [hd]
      rfl
    · intro hz hf
      obtain ⟨f, rfl⟩ : ∃ f, fuel = f + 1 := ⟨fuel - 1, by omega⟩
      rw [Nat.add_zero] at hz
      have hst : digitalStage g (obs k) s
          = .ok { s with phase := (s.phase + (obs k).mmStep) % s.maxPhase, cdr := false, converge := false, done := true } := by
        unfold digitalStage cdrStage lmsStage
        simp [hc, hcdr, hl, hz, bind, Except.bind, pure, Except.pure]
      refine ⟨{ s with phase := (s.phase + (obs k).mmStep) % s.maxPhase, cdr := false, converge := false, done := true },
        ?_, ?_⟩
      · unfold convergenceLoop
        rw [hd, hst]
        simp only [Bool.false_eq_true, if_false, bind, Except.bind]
        cases f <;> rfl
      · refine ⟨rfl, rfl, ?_⟩
        rw [hz]
        rfl
  | succ n ih =>
    intro k fuel s hc hcdr hl hd hm hp0 hp1 hnz
    have hk := hnz 0 (by omega)
    rw [Nat.add_zero] at hk
    cases fuel with
    | zero =>
      refine ⟨fun _ => ?_, fun _ h => by omega⟩
      unfold convergenceLoop
      rw [hd]
      rfl
    | succ f =>
      have hst : digitalStage g (obs k) s = .ok { s with phase := (s.phase + (obs k).mmStep) % s.maxPhase } := by
        unfold digitalStage cdrStage lmsStage
        simp [hc, hcdr, hl, hk, bind, Except.bind, pure, Except.pure]
      have hloop : convergenceLoop g obs (f + 1) k s
          = convergenceLoop g obs f (k + 1) { s with phase := (s.phase + (obs k).mmStep) % s.maxPhase } := by
        conv_lhs => unfold convergenceLoop
        rw [if_neg (by rw [hd]; decide), hst]
        rfl
      obtain ⟨i1, i2⟩ := ih (k + 1) f { s with phase := (s.phase + (obs k).mmStep) % s.maxPhase } hc hcdr hl hd hm
        (Int.emod_nonneg _ (by omega)) (Int.emod_lt_of_pos _ hm)
        (fun i hi => by rw [show k + 1 + i = k + (i + 1) by omega]; exact hnz (i + 1) (by omega))
      rw [hloop]
      refine ⟨fun hf => i1 (by omega), fun hz hf => ?_⟩
      obtain ⟨s', e1, e2, e3, e4⟩ := i2 (by rw [show k + 1 + n = k + (n + 1) by omega]; exact hz) (by omega)
      refine ⟨s', by rw [e1, show k + 1 + n + 1 = k + (n + 1) + 1 by omega], e2, e3, ?_⟩
      rw [e4, shift]
      simp only [Int.emod_add_emod]
      rw [add_assoc]

example : convergenceLoop true (fun k => ⟨if k < 3 then -1 else 0, none⟩) 10 0
    { converge := true, cdr := true, phase := 1, maxPhase := 64 }
    = .ok (some (4, { done := true, phase := 62, maxPhase := 64 })) := by decide +kernel

example : performConvergence true (fun k => ⟨if k < 3 then -1 else 0, some (1 / 2)⟩) 20 { phase := 32, maxPhase := 64 }
    = .ok none := by decide +kernel

end Verif
