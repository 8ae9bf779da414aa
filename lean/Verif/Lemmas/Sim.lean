import Verif.Spec.Sim
import Verif.Props.Coding
import Verif.Props.Symbol
import Mathlib.Tactic.Ring
import Mathlib.Tactic.NormNum

/-! Helper lemmas for the example simulation. -/

namespace Verif
open Spec

/-- the coder of a stage -/
def stageCode (st : Stage) (p : List Int) : Py (List Int) :=
  match st with
  | .none => .ok p
  | .binDifferential => .ok (codingDifferential p .ook)
  | .manchester => codingManchester p
  | .bipolar => codingBipolar p
  | .mlt3 => codingMlt3 p
  | .diffManchester => codingDiffManchester p

theorem encodeBinary_only {d : CodingData} {st : Stage} (h : OnlyStage d st) (p : List Int) :
    encodeBinary id d p = stageCode st p := by
  obtain ⟨h1, h2, h3, h4, h5, h6, h7⟩ := h
  unfold encodeBinary optStage
  rw [h1, h2, h3, h4, h5, h6, h7]
  cases st <;> simp [bind, Except.bind, stageCode]
  · cases codingManchester p <;> rfl
  · cases codingBipolar p <;> rfl
  · cases codingMlt3 p <;> rfl
  · cases codingDiffManchester p <;> rfl

/-- integers as rationals -/
def toRat (p : List Int) : List ℚ := p.map (fun (x : Int) => (x : ℚ))

theorem toRat_den (p : List Int) : (toRat p).all (fun q => q.den = 1) = true := by
  simp [toRat]

theorem toRat_num (p : List Int) : (toRat p).map Rat.num = p := by
  unfold toRat
  rw [List.map_map]
  conv_rhs => rw [← List.map_id p]
  apply List.map_congr_left
  intro x _
  simp

theorem toRat_inj {p q : List Int} (h : toRat p = toRat q) : p = q := by
  rw [← toRat_num p, h, toRat_num]

theorem decodeBinaryTail_off {d : CodingData} (h3 : d.bipolar = false) (h4 : d.mlt3 = false)
    (h5 : d.diffManchester = false) (h6 : d.linear = false) (h7 : d.conv = false) (x : List Int) :
    decodeBinaryTail d x = .ok x := by
  unfold decodeBinaryTail optStage
  rw [h3, h4, h5, h6, h7]
  rfl

/-- the decoder of a stage returns `p` -/
def StageDecodes (st : Stage) (x p : List Int) : Prop :=
  match st with
  | .none => x = p
  | .binDifferential => decodingDifferential x .ook = .ok p
  | .manchester => decodingManchester x = .ok (toRat p)
  | .bipolar => decodingBipolar x = p
  | .mlt3 => decodingMlt3 x = .ok p
  | .diffManchester => decodingDiffManchester x = .ok p

theorem decodeBinary_only {d : CodingData} {st : Stage} (h : OnlyStage d st) (x p : List Int)
    (hd : StageDecodes st x p) :
    decodeBinary d x = .ok (toRat p) := by
  obtain ⟨h1, h2, h3, h4, h5, h6, h7⟩ := h
  unfold decodeBinary
  cases st
  case manchester =>
    simp only [StageDecodes] at hd
    rw [h1, h2]
    have ht := decodeBinaryTail_off (d := d) h3 h4 h5 h6 h7 p
    simp only [optStage, bind, Except.bind, hd, pure, Except.pure, decide_true, reduceIte,
      show decide (Stage.manchester = Stage.binDifferential) = false from by decide, Bool.false_eq_true,
      toRat_den, toRat_num, ht]
    rfl
  all_goals
    simp only [StageDecodes] at hd
    rw [h1, h2]
    unfold decodeBinaryTail optStage
    rw [h3, h4, h5, h6, h7]
    simp [bind, Except.bind, hd, pure, Except.pure, toRat]

theorem stage_roundtrip {d : CodingData} {st : Stage} (h : OnlyStage d st) (p : List Int) (hp : IsBinary p)
    (hne : p ≠ []) :
    ∃ x, encodeBinary id d p = .ok x ∧ x.length = st.expand * p.length ∧
      (st.ternary = false → IsBinary x) ∧ decodeBinary d x = .ok (toRat p) := by
  rw [encodeBinary_only h]
  cases st
  case none =>
    exact ⟨p, rfl, by simp [Stage.expand], fun _ => hp, decodeBinary_only h p p rfl⟩
  case binDifferential =>
    have hr : ∀ x ∈ p, 0 ≤ x ∧ x < ((intLevels .ook).length : Int) := by
      intro x hx
      rcases hp x hx with rfl | rfl <;> decide
    refine ⟨_, rfl, by simp [Stage.expand, codingDifferential_length], fun _ => ?_,
      decodeBinary_only h _ p (C22_decode_code_partial .ook p hne hr)⟩
    intro x hx
    have := (C22_code_valid .ook p).1 x hx
    simp [intLevels] at this
    omega
  case manchester =>
    obtain ⟨c, hc, hl, hb, hd⟩ := C24_roundtrip p hp
    exact ⟨c, hc, hl, fun _ => hb, decodeBinary_only h c p hd⟩
  case bipolar =>
    obtain ⟨c, hc, hl, hd, _⟩ := C25_roundtrip p hp
    exact ⟨c, hc, by simp [Stage.expand, hl], fun e => by simp [Stage.ternary] at e, decodeBinary_only h c p hd⟩
  case mlt3 =>
    obtain ⟨c, hc, hd⟩ := C27_roundtrip p hp hne
    obtain ⟨c', hc', hl, _⟩ := C27_cycle p hp
    have e : c' = c := by rw [hc] at hc'; exact (Except.ok.inj hc').symm
    exact ⟨c, hc, by simp [Stage.expand, ← e, hl], fun e => by simp [Stage.ternary] at e, decodeBinary_only h c p hd⟩
  case diffManchester =>
    obtain ⟨c, hc, hd⟩ := C28_roundtrip p hp
    obtain ⟨c', hc', hl, hb, _⟩ := C28_transitions p hp
    have e : c' = c := by rw [hc] at hc'; exact (Except.ok.inj hc').symm
    exact ⟨c, hc, by simp [Stage.expand, ← e, hl], fun _ => e ▸ hb, decodeBinary_only h c p hd⟩

theorem map_sub_sub (k : Int) (x : List Int) : (x.map (fun v => k - v)).map (fun v => k - v) = x := by
  rw [List.map_map]
  conv_rhs => rw [← List.map_id x]
  apply List.map_congr_left
  intro v _
  simp

theorem symbols_roundtrip {d : CodingData} (x : List Int) (tern : Bool) (hfit : SymbolsFit d x.length tern)
    (hb : tern = false → IsBinary x) :
    ∃ y, encodeSymbols d x = .ok y ∧ decodeSymbols d y = .ok x ∧ (x ≠ [] → y ≠ []) ∧
      (d.bps = .whole 1 → IsBinary x → IsBinary y) := by
  unfold SymbolsFit at hfit
  unfold encodeSymbols decodeSymbols
  cases hbps : d.bps with
  | log2of3 => rw [hbps] at hfit; exact hfit.elim
  | belowOne =>
    simp only
    cases d.flags.pnInv
    · exact ⟨x, rfl, rfl, id, by simp⟩
    · refine ⟨x.map (fun v => 2 - v), rfl, ?_, by simp, by simp⟩
      simp only [if_true]
      rw [map_sub_sub]
  | whole b =>
    rw [hbps] at hfit
    simp only at hfit ⊢
    rcases Nat.lt_or_ge 1 b with h1 | h1
    · rcases hfit with hf | ⟨ht, hdvd, hs⟩
      · omega
      · rw [if_pos h1]
        have hbin := hb ht
        have hmod : x.length % b = 0 := Nat.mod_eq_zero_of_dvd hdvd
        have := C12_bits_roundtrip_partial x hbin b (by omega) d.flags (by
          rcases hs with hs | ⟨s1, s2, s3⟩
          · right; left
            intro e
            apply hs
            have := Nat.div_add_mod x.length b
            rw [hmod, e] at this
            omega
          · right; right
            simp [SymFlags.matrixOp, s1, s2, s3])
        obtain ⟨y, hy, hl, _⟩ := C14_symbol_range x hbin b (by omega) d.flags
        rw [hy] at this
        simp only [bind, Except.bind, hmod, Nat.sub_zero, List.take_length] at this
        refine ⟨y, hy, ?_, ?_, ?_⟩
        · rw [if_pos h1]; exact this
        · intro hx hy0
          rw [hy0] at hl
          have h0 : 0 < x.length := List.length_pos_of_ne_nil hx
          have := Nat.div_pos (Nat.le_of_dvd h0 hdvd) (by omega : 0 < b)
          simp at hl
          omega
        · intro e
          simp only [BitsPerSymbol.whole.injEq] at e
          omega
    · rw [if_neg (by omega)]
      cases d.flags.pnInv
      · refine ⟨x, rfl, ?_, id, fun _ h => h⟩
        rw [if_neg (by omega)]
        rfl
      · refine ⟨x.map (fun v => 1 - v), rfl, ?_, by simp, ?_⟩
        · rw [if_neg (by omega)]
          simp only [if_true]
          rw [map_sub_sub]
        · intro _ hx v hv
          rw [List.mem_map] at hv
          obtain ⟨w, hw, rfl⟩ := hv
          rcases hx w hw with rfl | rfl <;> simp

end Verif
