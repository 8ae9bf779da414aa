import Verif.Model.EstimPrbs
import Verif.Spec.EstimPrbs
import Verif.Spec.Prbs
import Verif.Lemmas.RefSeq
import Verif.Lemmas.Lock
import Verif.Lemmas.Mapping
import Verif.Lemmas.Symbol
import Verif.Lemmas.Gray
import Verif.Lemmas.Estim

/-! Helper lemmas for the PRBS based estimators. -/

open Finset

namespace Verif

open Spec (unitScale flipBit txLevel periodic chanOut popVar MainTap)

/-! ### the reference pattern -/

theorem getLevels_scale (c : Constellation) (fs : Bool) :
    getLevels c fs = (intLevels c).map (fun (z : Int) => (z : ℝ) * unitScale c fs) := by
  cases fs
  · simp [getLevels, unitScale]
  · cases c
    · simp [getLevels, unitScale, intLevels]
    · simp [getLevels, unitScale, intLevels]
    · have : ((((intLevels .pam3).map (fun (z : Int) => (z : ℝ))).map (fun l => l ^ 2)).sum
          / (((intLevels .pam3).map (fun (z : Int) => (z : ℝ))).length : ℝ)) = 2 / 3 := by
        norm_num [intLevels]
      simp only [getLevels, if_true, this, unitScale]
      rw [List.map_map]
      exact List.map_congr_left (fun z _ => by rw [Function.comp_apply, mul_one_div])
    · have : ((((intLevels .pam4).map (fun (z : Int) => (z : ℝ))).map (fun l => l ^ 2)).sum
          / (((intLevels .pam4).map (fun (z : Int) => (z : ℝ))).length : ℝ)) = 5 := by
        norm_num [intLevels]
      simp only [getLevels, if_true, this, unitScale]
      rw [List.map_map]
      exact List.map_congr_left (fun z _ => by rw [Function.comp_apply, mul_one_div])

/-- mapping of valid symbols -/
theorem mapping_valid (sym : List Int) (c : Constellation) (fs pn : Bool)
    (hs : ∀ x ∈ sym, 0 ≤ x ∧ x < (intLevels c).length) :
    mapping sym c fs none pn
      = .ok (sym.map (fun x => (if pn then -1 else 1) * unitScale c fs * ((intLevels c).getD x.toNat 0 : ℝ))) := by
  simp only [mapping]
  refine npTake_ok _ _ _ (fun x hx => ?_)
  obtain ⟨h0, h1⟩ := hs x hx
  have hl : x.toNat < (intLevels c).length := by omega
  rw [npGet_valid _ 0 x h0 (by cases pn <;> simp [getLevels_length, h1])]
  congr 1
  have e : (getLevels c fs).getD x.toNat 0 = ((intLevels c).getD x.toNat 0 : ℝ) * unitScale c fs := by
    rw [getLevels_scale, List.getD_eq_getElem?_getD, List.getElem?_map, List.getElem?_eq_getElem hl,
      List.getD_eq_getElem?_getD, List.getElem?_eq_getElem hl]
    rfl
  cases pn
  · simp only [Bool.false_eq_true, if_false]; rw [e]; ring
  · simp only [if_true]
    rw [List.getD_eq_getElem?_getD, List.getElem?_map,
      List.getElem?_eq_getElem (by rw [getLevels_length]; exact hl)]
    rw [List.getD_eq_getElem?_getD, List.getElem?_eq_getElem (by rw [getLevels_length]; exact hl)] at e
    simp only [Option.map_some, Option.getD_some] at e ⊢
    rw [e]; ring

/-- number of PRBS periods in the reference pattern -/
def refReps (c : Constellation) : ℕ := if c = .pam4 then 1 else 2

/-- the all-ones register -/
abbrev onesSeed (p : PrbsEnum) : List Int := List.replicate p.value 1

theorem onesSeed_ne (p : PrbsEnum) : ∃ x ∈ onesSeed p, x % 2 = 1 :=
  ⟨1, List.mem_replicate.2 ⟨(value_pos p).ne', rfl⟩, rfl⟩

theorem rows_two_map (f : ℕ → Int) (n : ℕ) :
    rows 2 ((List.range (2 * n)).map f) = (List.range n).map (fun t => [f (2 * t), f (2 * t + 1)]) := by
  rw [rows]
  have : ((List.range (2 * n)).map f).length / 2 = n := by simp
  rw [this]
  apply List.map_congr_left
  intro t ht
  rw [List.mem_range] at ht
  apply List.ext_getElem?
  intro i
  rw [List.getElem?_take, List.getElem?_drop, map_range_getElem?]
  match i with
  | 0 => rw [if_pos (by omega), if_pos (by omega), Nat.mul_comm]; rfl
  | 1 => rw [if_pos (by omega), if_pos (by omega), Nat.mul_comm]; rfl
  | i + 2 => rw [if_neg (by omega)]; rfl

/-- closed form of the reference pattern -/
theorem prbsReference_eq (p : PrbsEnum) (c : Constellation) (hc : c ≠ .pam3) (fs bi pnPre gray pnPost : Bool) :
    prbsReference p c fs bi pnPre gray pnPost = .ok ((List.range (refReps c * (2 ^ p.value - 1))).map
      (txLevel c fs bi pnPre gray pnPost (bitAt (getPolynomial p) (onesSeed p)))) := by
  have hbit := bitAt_mem (getPolynomial p) (onesSeed p)
  unfold prbsReference
  simp only [List.length_replicate]
  rw [prbsGenerator_supported p (onesSeed p) (by simp)]
  simp only [bind, Except.bind]
  -- two levels
  have two : ∀ c : Constellation, c = .nrz ∨ c = .ook →
      bin2symbol ((List.range (2 * (2 ^ p.value - 1))).map (bitAt (getPolynomial p) (onesSeed p))) (intLevels c).length
          { bitOrderInv := bi, pnInv := pnPre }
        = .ok ((List.range (2 * (2 ^ p.value - 1))).map (fun t => flipBit pnPre (bitAt (getPolynomial p) (onesSeed p) t))) ∧
      ∀ l, codingGray l c = .ok l := by
    intro c h
    have h2 : (intLevels c).length = 2 := by rcases h with rfl | rfl <;> rfl
    constructor
    · rw [h2, bin2symbol_two]
      cases pnPre
      · simp [flipBit]
      · simp [flipBit]
    · intro l
      rcases h with rfl | rfl <;> rfl
  have fb : ∀ t, flipBit pnPre (bitAt (getPolynomial p) (onesSeed p) t) = 0
      ∨ flipBit pnPre (bitAt (getPolynomial p) (onesSeed p) t) = 1 := by
    intro t
    rcases hbit t with h | h <;> rw [h] <;> cases pnPre <;> decide
  have twoMap : ∀ c : Constellation, c = .nrz ∨ c = .ook →
      mapSymbols c fs gray pnPost
          ((List.range (2 * (2 ^ p.value - 1))).map (fun t => flipBit pnPre (bitAt (getPolynomial p) (onesSeed p) t)))
        = .ok ((List.range (2 * (2 ^ p.value - 1))).map
            (txLevel c fs bi pnPre gray pnPost (bitAt (getPolynomial p) (onesSeed p)))) := by
    intro c h
    have e : mapSymbols c fs gray pnPost
          ((List.range (2 * (2 ^ p.value - 1))).map (fun t => flipBit pnPre (bitAt (getPolynomial p) (onesSeed p) t)))
        = mapping ((List.range (2 * (2 ^ p.value - 1))).map
            (fun t => flipBit pnPre (bitAt (getPolynomial p) (onesSeed p) t))) c fs none pnPost := by
      rw [mapSymbols, (two c h).2]
      simp
    rw [e, mapping_valid]
    · rw [List.map_map]
      congr 1
      apply List.map_congr_left
      intro t _
      rw [Function.comp_apply]
      rcases h with rfl | rfl <;> rcases fb t with h | h <;> simp [txLevel, h, intLevels] <;> norm_num
    · intro x hx
      obtain ⟨t, -, rfl⟩ := List.mem_map.1 hx
      rcases h with rfl | rfl <;> rcases fb t with h | h <;> rw [h] <;> decide
  cases c with
  | nrz => rw [(two .nrz (Or.inl rfl)).1]; exact twoMap .nrz (Or.inl rfl)
  | ook => rw [(two .ook (Or.inr rfl)).1]; exact twoMap .ook (Or.inr rfl)
  | pam3 => exact absurd rfl hc
  | pam4 =>
    set b := bitAt (getPolynomial p) (onesSeed p) with hb
    -- symbol index
    set lo : ℕ → ℤ := fun t => flipBit pnPre (if bi then b (2 * t + 1) else b (2 * t)) with hlo
    set hi : ℕ → ℤ := fun t => flipBit pnPre (if bi then b (2 * t) else b (2 * t + 1)) with hhi
    have flo : ∀ t, lo t = 0 ∨ lo t = 1 := by
      intro t
      simp only [hlo]
      split
      · exact fb _
      · exact fb _
    have fhi : ∀ t, hi t = 0 ∨ hi t = 1 := by
      intro t
      simp only [hhi]
      split
      · exact fb _
      · exact fb _
    have hsym : bin2symbol ((List.range (2 * (2 ^ p.value - 1))).map b) (intLevels .pam4).length
          { bitOrderInv := bi, pnInv := pnPre }
        = .ok ((List.range (2 ^ p.value - 1)).map (fun t => lo t + 2 * hi t)) := by
      show bin2symbol _ (2 ^ 2) _ = _
      rw [bin2symbol_multi _ 2 (le_refl 2)]
      have : ((List.range (2 * (2 ^ p.value - 1))).map b).length % 2 = 0 := by simp
      rw [this, Nat.sub_zero, List.take_length, rows_two_map, List.map_map]
      congr 1
      apply List.map_congr_left
      intro t _
      rw [Function.comp_apply]
      simp only [hlo, hhi]
      cases bi <;> cases pnPre <;> simp [txRow, Spec.leVal, flipBit]
    rw [hsym]
    show mapSymbols .pam4 fs gray pnPost _ = _
    have rng : ∀ t, 0 ≤ lo t + 2 * hi t ∧ lo t + 2 * hi t < 4 := by
      intro t
      rcases flo t with h | h <;> rcases fhi t with h' | h' <;> rw [h, h'] <;> decide
    have e : mapSymbols .pam4 fs gray pnPost ((List.range (2 ^ p.value - 1)).map (fun t => lo t + 2 * hi t))
        = mapping ((List.range (2 ^ p.value - 1)).map
            (fun t => (if gray then (lo t + hi t) % 2 else lo t) + 2 * hi t)) .pam4 fs none pnPost := by
      rw [mapSymbols]
      cases gray with
      | false => simp
      | true =>
        rw [if_pos rfl]
        have : codingGray ((List.range (2 ^ p.value - 1)).map (fun t => lo t + 2 * hi t)) .pam4
            = .ok ((List.range (2 ^ p.value - 1)).map (fun t => (lo t + hi t) % 2 + 2 * hi t)) := by
          show npTake ([0, 1, 3, 2] : List Int) _ = _
          rw [npTake_ok _ _ (fun x => ([0, 1, 3, 2] : List Int).getD x.toNat 0)]
          · rw [List.map_map]
            congr 1
            apply List.map_congr_left
            intro t _
            rw [Function.comp_apply]
            rcases flo t with h | h <;> rcases fhi t with h' | h' <;> rw [h, h'] <;> decide
          · intro x hx
            obtain ⟨t, -, rfl⟩ := List.mem_map.1 hx
            exact npGet_valid _ 0 _ (rng t).1 (rng t).2
        rw [this]
        simp
    rw [e, mapping_valid]
    · rw [List.map_map]
      congr 1
      rw [refReps, if_pos rfl, one_mul]
      apply List.map_congr_left
      intro t _
      rw [Function.comp_apply]
      have : txLevel .pam4 fs bi pnPre gray pnPost b t = (if pnPost then -1 else 1) * unitScale .pam4 fs
          * (2 * (2 * (hi t : ℝ) - 1) + (2 * (if gray then (lo t + hi t) % 2 else lo t : ℤ) - 1)) := rfl
      rw [this]
      congr 1
      rcases flo t with h | h <;> rcases fhi t with h' | h' <;> rw [h, h'] <;> cases gray <;> simp [intLevels] <;>
        norm_num
    · intro x hx
      obtain ⟨t, -, rfl⟩ := List.mem_map.1 hx
      show _ ∧ _ < (4 : ℤ)
      rcases flo t with h | h <;> rcases fhi t with h' | h' <;> rw [h, h'] <;> cases gray <;> decide

/-! ### the reference as a sequence on the residues -/

section RefZ
variable (p : PrbsEnum) (c : Constellation) (fs bi pnPre gray pnPost : Bool)

/-- the reference level by residue -/
noncomputable def refZ (z : ZMod (2 ^ p.value - 1)) : ℝ :=
  txLevel c fs bi pnPre gray pnPost (bitAt (getPolynomial p) (onesSeed p)) z.val

theorem bitAt_congr (p : PrbsEnum) {s t : ℕ} (h : s % (2 ^ p.value - 1) = t % (2 ^ p.value - 1)) :
    bitAt (getPolynomial p) (onesSeed p) s = bitAt (getPolynomial p) (onesSeed p) t := by
  rw [← bitAt_mod p (onesSeed p) (by simp) s, h, bitAt_mod p (onesSeed p) (by simp)]

theorem txLevel_mod (t : ℕ) :
    txLevel c fs bi pnPre gray pnPost (bitAt (getPolynomial p) (onesSeed p)) (t % (2 ^ p.value - 1))
      = txLevel c fs bi pnPre gray pnPost (bitAt (getPolynomial p) (onesSeed p)) t := by
  have h1 := bitAt_congr p (s := t % (2 ^ p.value - 1)) (t := t) (Nat.mod_mod _ _)
  have h2 := bitAt_congr p (s := 2 * (t % (2 ^ p.value - 1))) (t := 2 * t) (by rw [Nat.mul_mod_mod])
  have h3 := bitAt_congr p (s := 2 * (t % (2 ^ p.value - 1)) + 1) (t := 2 * t + 1) (by
    rw [Nat.add_mod, Nat.mul_mod_mod, ← Nat.add_mod])
  cases c <;> simp only [txLevel, h1, h2, h3]

theorem refZ_cast (t : ℕ) : refZ p c fs bi pnPre gray pnPost (t : ZMod (2 ^ p.value - 1))
    = txLevel c fs bi pnPre gray pnPost (bitAt (getPolynomial p) (onesSeed p)) t := by
  rw [refZ, ZMod.val_natCast, txLevel_mod]

theorem refZ_int (t : ℤ) : periodic (2 ^ p.value - 1)
    (txLevel c fs bi pnPre gray pnPost (bitAt (getPolynomial p) (onesSeed p))) t
      = refZ p c fs bi pnPre gray pnPost (t : ZMod (2 ^ p.value - 1)) := by
  rw [periodic, refZ]
  congr 1
  have := ZMod.val_intCast (n := 2 ^ p.value - 1) t
  omega

theorem unitScale_pos : 0 < unitScale c fs := by
  cases fs
  · simp [unitScale]
  · cases c <;> simp [unitScale]

theorem flip_sign (b : ℤ) : (2 * (flipBit pnPre b : ℝ) - 1) = (if pnPre then -1 else 1) * (2 * (b : ℝ) - 1) := by
  cases pnPre
  · simp [flipBit]
  · simp [flipBit]; ring

/-- the two conditions on the reference used below -/
structure GoodRef {N : ℕ} [NeZero N] (four : Bool) (ref : ZMod N → ℝ) : Prop where
  inj : ∀ x : ZMod N → ℝ, (∀ z, ∑ r, x r * ref (z + r) = 0) → x = 0
  lock : ∀ h : ZMod N → ℝ, (∀ s, s ≠ 0 → if four then 11 * |h s| < 3 * h 0 else h s < h 0) → ∀ s, s ≠ 0 →
    ∑ z, ref (z + s) * ∑ r, h r * ref (z + r) < ∑ z, ref z * ∑ r, h r * ref (z + r)

theorem half_mod (p : PrbsEnum) : 2 * ((2 ^ (p.value - 1) : ℕ) : ZMod (2 ^ p.value - 1)) = 1 := by
  have h : (2 : ℕ) ^ p.value = 2 * 2 ^ (p.value - 1) := by
    rw [← Nat.pow_succ']; congr 1; have := value_pos p; omega
  have h1 : 2 * 2 ^ (p.value - 1) = (2 ^ p.value - 1) + 1 := by
    have : 1 ≤ 2 ^ p.value := Nat.one_le_two_pow
    omega
  have h2 := congrArg (fun n : ℕ => (n : ZMod (2 ^ p.value - 1))) h1
  simp only [Nat.cast_add, Nat.cast_one, ZMod.natCast_self, zero_add, Nat.cast_mul, Nat.cast_ofNat] at h2
  exact h2

theorem period_ge (p : PrbsEnum) : 127 ≤ 2 ^ p.value - 1 := by
  cases p <;> decide

theorem good_affine (al be : ℝ) (hal : al ≠ 0) (hab : al + ((2 ^ p.value - 1 : ℕ) : ℝ) * be ≠ 0)
    (h : ∀ z, refZ p c fs bi pnPre gray pnPost z = al * uSeq p (onesSeed p) z + be) :
    GoodRef false (refZ p c fs bi pnPre gray pnPost) := by
  have hu := uSeq_corr p (onesSeed p) (by simp) (onesSeed_ne p)
  have h1 := uSeq_sum p (onesSeed p) (by simp) (onesSeed_ne p)
  constructor
  · intro x hx
    simp only [h] at hx
    exact affine_inj _ hu h1 al be hal hab x hx
  · intro t ht s hs
    simp only [h]
    exact affine_lock _ hu h1 al be hal t (by simpa using ht) s hs

theorem good_twoTap (ga si : ℝ) (hga : ga ≠ 0) (hsi : si = 1 ∨ si = -1) (a b : ZMod (2 ^ p.value - 1)) (hab : a ≠ b)
    (h : ∀ z, refZ p c fs bi pnPre gray pnPost z = twoTap (uSeq p (onesSeed p)) ga si a b z) :
    GoodRef true (refZ p c fs bi pnPre gray pnPost) := by
  have hu := uSeq_corr p (onesSeed p) (by simp) (onesSeed_ne p)
  have e : refZ p c fs bi pnPre gray pnPost = twoTap (uSeq p (onesSeed p)) ga si a b := funext h
  constructor
  · intro x hx
    rw [e] at hx
    exact twoTap_inj _ hu _ (half_mod p) ga si hsi a b hga x hx
  · intro t ht s hs
    rw [e]
    exact twoTap_lock _ hu _ (half_mod p) ga si hsi a b hab hga t (by simpa using ht) s hs

theorem uSeq_two (z : ZMod (2 ^ p.value - 1)) (k : ℕ) :
    uSeq p (onesSeed p) (2 * z + (k : ZMod (2 ^ p.value - 1)))
      = 2 * (bitAt (getPolynomial p) (onesSeed p) (2 * z.val + k) : ℝ) - 1 := by
  rw [← uSeq_cast p (onesSeed p) (by simp)]
  congr 1
  push_cast
  rw [ZMod.natCast_zmod_val]

/-- a supported PRBS is not constantly zero -/
theorem bits_not_zero (h : ∀ t, bitAt (getPolynomial p) (onesSeed p) (t + 1) = 0) : False := by
  have h1 := uSeq_sum p (onesSeed p) (by simp) (onesSeed_ne p)
  have h2 : ∀ z, uSeq p (onesSeed p) z = -1 := by
    intro z
    have : z = ((z.val + (2 ^ p.value - 1) : ℕ) : ZMod (2 ^ p.value - 1)) := by
      rw [Nat.cast_add, ZMod.natCast_self, add_zero, ZMod.natCast_zmod_val]
    rw [this, uSeq_cast p (onesSeed p) (by simp)]
    have hp := period_ge p
    have := h (z.val + (2 ^ p.value - 1) - 1)
    rw [Nat.sub_add_cancel (by omega)] at this
    rw [this]; norm_num
  rw [sum_congr rfl (fun z _ => h2 z), sum_const, card_univ, ZMod.card, nsmul_eq_mul] at h1
  have : (0 : ℝ) ≤ ((2 ^ p.value - 1 : ℕ) : ℝ) := Nat.cast_nonneg _
  linarith

theorem ref_good (hc : c ≠ .pam3) :
    GoodRef (decide (c = .pam4)) (refZ p c fs bi pnPre gray pnPost) := by
  have hg := unitScale_pos c fs
  set g : ℝ := (if pnPost then -1 else 1) * unitScale c fs with hgd
  have hg0 : g ≠ 0 := by
    rw [hgd]
    cases pnPost <;> simp [hg.ne']
  set ep : ℝ := if pnPre then -1 else 1 with hep
  have hep0 : ep = 1 ∨ ep = -1 := by rw [hep]; cases pnPre <;> simp
  have hN : (127 : ℝ) ≤ ((2 ^ p.value - 1 : ℕ) : ℝ) := by exact_mod_cast period_ge p
  cases c with
  | nrz =>
    refine good_affine p .nrz fs bi pnPre gray pnPost (g * ep) 0 ?_ ?_ (fun z => ?_)
    · rcases hep0 with h | h <;> rw [h] <;> simp [hg0]
    · rw [mul_zero, add_zero]; rcases hep0 with h | h <;> rw [h] <;> simp [hg0]
    · rw [refZ, uSeq]
      simp only [txLevel]
      rw [flip_sign, ← hgd, ← hep]; ring
  | ook =>
    refine good_affine p .ook fs bi pnPre gray pnPost (g * ep / 2) (g / 2) ?_ ?_ (fun z => ?_)
    · rcases hep0 with h | h <;> rw [h] <;> simp [hg0]
    · have : g * ep / 2 + ((2 ^ p.value - 1 : ℕ) : ℝ) * (g / 2)
          = g * ((ep + ((2 ^ p.value - 1 : ℕ) : ℝ)) / 2) := by ring
      rw [this]
      refine mul_ne_zero hg0 ?_
      rcases hep0 with h | h <;> rw [h]
      · have : (0 : ℝ) < (1 + ((2 ^ p.value - 1 : ℕ) : ℝ)) / 2 := by linarith
        exact this.ne'
      · have : (0 : ℝ) < (-1 + ((2 ^ p.value - 1 : ℕ) : ℝ)) / 2 := by linarith
        exact this.ne'
    · rw [refZ, uSeq]
      simp only [txLevel]
      have := flip_sign pnPre (bitAt (getPolynomial p) (onesSeed p) z.val)
      rw [← hep] at this
      rw [← hgd]
      linear_combination (g / 2) * this
  | pam3 => exact absurd rfl hc
  | pam4 =>
    set b := bitAt (getPolynomial p) (onesSeed p) with hb
    have u0 : ∀ z : ZMod (2 ^ p.value - 1), uSeq p (onesSeed p) (2 * z + 0) = 2 * (b (2 * z.val) : ℝ) - 1 := by
      intro z
      have := uSeq_two p z 0
      rwa [Nat.cast_zero] at this
    have u1 : ∀ z : ZMod (2 ^ p.value - 1), uSeq p (onesSeed p) (2 * z + 1) = 2 * (b (2 * z.val + 1) : ℝ) - 1 := by
      intro z
      have := uSeq_two p z 1
      rwa [Nat.cast_one] at this
    have one_ne : (1 : ZMod (2 ^ p.value - 1)) ≠ 0 := by
      have hp := period_ge p
      intro h
      have h' : ((1 : ℕ) : ZMod (2 ^ p.value - 1)) = 0 := by rwa [Nat.cast_one]
      have := Nat.le_of_dvd one_pos ((ZMod.natCast_eq_zero_iff _ _).1 h')
      omega
    have epg : g * ep ≠ 0 := by rcases hep0 with h | h <;> rw [h] <;> simp [hg0]
    have val : ∀ z : ZMod (2 ^ p.value - 1), refZ p .pam4 fs bi pnPre gray pnPost z
        = g * (2 * (2 * (flipBit pnPre (if bi then b (2 * z.val) else b (2 * z.val + 1)) : ℝ) - 1)
          + (2 * ((if gray then (flipBit pnPre (if bi then b (2 * z.val + 1) else b (2 * z.val))
                + flipBit pnPre (if bi then b (2 * z.val) else b (2 * z.val + 1))) % 2
              else flipBit pnPre (if bi then b (2 * z.val + 1) else b (2 * z.val)) : ℤ) : ℝ) - 1)) := fun z => rfl
    cases gray with
    | false =>
      cases bi with
      | false =>
        refine good_twoTap p .pam4 fs false pnPre false pnPost (g * ep) 1 epg (Or.inl rfl) 1 0 one_ne (fun z => ?_)
        rw [val, twoTap, u0, u1]
        simp only [Bool.false_eq_true, if_false]
        rw [flip_sign, flip_sign, ← hep]; ring
      | true =>
        refine good_twoTap p .pam4 fs true pnPre false pnPost (g * ep) 1 epg (Or.inl rfl) 0 1 one_ne.symm (fun z => ?_)
        rw [val, twoTap, u0, u1]
        simp only [Bool.false_eq_true, if_false, if_true]
        rw [flip_sign, flip_sign, ← hep]; ring
    | true =>
      have hp := period_ge p
      obtain ⟨d, hd, hsa⟩ := shift_and_add p (onesSeed p) (by simp) (onesSeed_ne p) 1 (by
        intro h; have := Nat.le_of_dvd one_pos h; omega)
      have hbm := bitAt_mem (getPolynomial p) (onesSeed p)
      rw [← hb] at hsa hbm
      have d0 : (d : ZMod (2 ^ p.value - 1)) ≠ 0 := by
        intro h
        have h := Nat.eq_zero_of_dvd_of_lt ((ZMod.natCast_eq_zero_iff _ _).1 h) hd
        subst h
        refine bits_not_zero p (fun t => ?_)
        rw [← hb]
        have := hsa t
        rw [add_zero] at this
        rcases hbm t with h1 | h1 <;> rcases hbm (t + 1) with h2 | h2 <;> rw [h1, h2] at this <;>
          first | exact h2 | (exfalso; revert this; decide)
      have d1 : (d : ZMod (2 ^ p.value - 1)) ≠ 1 := by
        intro h
        have h' : (d : ZMod (2 ^ p.value - 1)) = ((1 : ℕ) : ZMod (2 ^ p.value - 1)) := by rw [h, Nat.cast_one]
        rw [ZMod.natCast_eq_natCast_iff', Nat.mod_eq_of_lt hd, Nat.mod_eq_of_lt (by omega)] at h'
        subst h'
        refine bits_not_zero p (fun t => ?_)
        rw [← hb]
        have := hsa (t + 1)
        rcases hbm (t + 1) with h1 | h1 <;> rcases hbm (t + 1 + 1) with h2 | h2 <;> rw [h1, h2] at this <;>
          first | exact h1 | (exfalso; revert this; decide)
      have ud : ∀ z : ZMod (2 ^ p.value - 1), uSeq p (onesSeed p) (2 * z + d)
          = 2 * (((b (2 * z.val) + b (2 * z.val + 1)) % 2 : ℤ) : ℝ) - 1 := by
        intro z
        rw [uSeq_two p z d, ← hb, hsa]
      have xorFlip : ∀ s t, (flipBit pnPre (b s) + flipBit pnPre (b t)) % 2 = (b s + b t) % 2 := by
        intro s t
        rcases hbm s with h1 | h1 <;> rcases hbm t with h2 | h2 <;> rw [h1, h2] <;> cases pnPre <;> decide
      have epp : ep * ep = 1 := by rcases hep0 with h | h <;> rw [h] <;> norm_num
      cases bi with
      | false =>
        refine good_twoTap p .pam4 fs false pnPre true pnPost (g * ep) ep epg hep0 1 d d1.symm (fun z => ?_)
        rw [val, twoTap, ud, u1]
        simp only [Bool.false_eq_true, if_false, if_true]
        rw [flip_sign, ← hep, xorFlip]
        linear_combination (-g * (2 * (((b (2 * z.val) + b (2 * z.val + 1)) % 2 : ℤ) : ℝ) - 1)) * epp
      | true =>
        refine good_twoTap p .pam4 fs true pnPre true pnPost (g * ep) ep epg hep0 0 d d0.symm (fun z => ?_)
        rw [val, twoTap, ud, u0]
        simp only [if_true]
        rw [flip_sign, ← hep, xorFlip, add_comm (b (2 * z.val + 1))]
        linear_combination (-g * (2 * (((b (2 * z.val) + b (2 * z.val + 1)) % 2 : ℤ) : ℝ) - 1)) * epp

end RefZ

end Verif
