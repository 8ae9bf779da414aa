import Verif.Lemmas.ConvCode

/-!
# Convolutional encoder and trellis (C34-C36)

`nIn = G.length` inputs, `nO` outputs. Number of encoder steps: `ceil(len / nIn)`.
-/

namespace Verif
open Spec

/-! ## C34 encoder without feedback -/

/-- **C34.** For every arithmetic that is exact on integers up to `2^53` (IEEE double precision is, see
`C34_double`), coded bit `j` at step `t` is the XOR over inputs `i` and delays `d` of `G[i][j][d]` AND
input `i` at step `t-d`; the length is `nO * ceil(len / nIn)`. The only size condition is that no output
combines more than `2^53` taps. -/
theorem C34_encoder {nO : ℕ} {G : ConvG} (hG : GoodG nO G) (uf : ConvUf) (p : List Int) (hp : IsBinary p)
    (rnd : Int → Int) (hr : ∀ n : Int, |n| ≤ 2 ^ 53 → rnd n = n)
    (hs : ∀ j < nO, ∑ i ∈ Finset.range G.length, (tf G i j).sum ≤ 2 ^ 53) :
    ∃ c, codingConv rnd p G none uf = .ok c ∧ c.length = nO * ((p.length + G.length - 1) / G.length) ∧ IsBinary c ∧
      ∀ t j : ℕ, t < (p.length + G.length - 1) / G.length → j < nO →
        c.getD (t * nO + j) 0 = (∑ i ∈ Finset.range G.length, tapSum (tf G i j) (inBit p G.length i) t) % 2 := by
  have hreg : ∀ i, IsRegister [1] (inBit p G.length i) (inBit p G.length i) := by
    intro i t _
    simp only [List.length_singleton, Nat.sub_self, Finset.range_zero, Finset.sum_empty, add_zero]
    rcases inBit_binary hp G.length i t with h | h <;> rw [h] <;> rfl
  have hround : codingConv rnd p G none uf = codingConv id p G none uf := by
    apply codingConv_round hG none uf p hp hr (fun i j => (tf G i j).sum) hs
    · intro i j _ _
      exact Or.inl ⟨rfl, le_rfl⟩
    · intro i j hi hj
      obtain ⟨c, hc, _⟩ := contribution_spec G none uf (inSeq p G.length i) i j (goodG_binary hG hi hj)
        (inBit p G.length i) (inBit p G.length i) (inBit_nat p _ _ hi) (inBit_neg p _ _) (inBit_neg p _ _)
        (hreg i) (fun f hf => by cases hf) (fun _ h => absurd rfl h)
      exact ⟨c, hc⟩
  obtain ⟨c, h1, h2, h3, h4⟩ := codingConv_eq hG none uf p (checkValidConv_none hG hp uf) (inBit p G.length)
    (fun i _ => inBit_neg p _ _) (fun i _ => hreg i) (fun i f hf => by cases hf)
    (fun i j _ _ _ h => absurd rfl h)
  refine ⟨c, by rw [hround]; exact h1, by rw [h2, Nat.mul_comm]; rfl, h3, fun t j ht hj => ?_⟩
  rw [h4 t j ht hj]
  unfold encBit
  congr 1

/-- double precision rounding satisfies the hypothesis of `C34_encoder` -/
theorem C34_double (n : Int) (h : |n| ≤ 2 ^ 53) : rnd53 n = n := by
  by_cases h1 : n.natAbs < 2 ^ 53
  · unfold rnd53; rw [if_pos h1]
  · have : n = 2 ^ 53 ∨ n = - 2 ^ 53 := by
      rw [Int.abs_eq_natAbs] at h
      omega
    rcases this with rfl | rfl <;> decide +kernel

/-- **C34.** Encoding is causal: the first `t` output blocks depend on the first `t` input blocks only. -/
theorem C34_causal {nO : ℕ} {G : ConvG} (hG : GoodG nO G) (uf : ConvUf) (p q cp cq : List Int) (hp : IsBinary p)
    (hq : IsBinary q) (rnd : Int → Int) (hr : ∀ n : Int, |n| ≤ 2 ^ 53 → rnd n = n)
    (hs : ∀ j < nO, ∑ i ∈ Finset.range G.length, (tf G i j).sum ≤ 2 ^ 53)
    (h1 : codingConv rnd p G none uf = .ok cp) (h2 : codingConv rnd q G none uf = .ok cq)
    (T : ℕ) (hT : ∀ k, k < T * G.length → p.getD k 0 = q.getD k 0)
    (hTp : T ≤ (p.length + G.length - 1) / G.length) (hTq : T ≤ (q.length + G.length - 1) / G.length) (m : ℕ)
    (hm : m < T * nO) : cp.getD m 0 = cq.getD m 0 := by
  obtain ⟨c, a1, _, _, a4⟩ := C34_encoder hG uf p hp rnd hr hs
  obtain ⟨d, b1, _, _, b4⟩ := C34_encoder hG uf q hq rnd hr hs
  rw [h1] at a1; rw [h2] at b1
  cases a1; cases b1
  rcases Nat.eq_zero_or_pos nO with rfl | hn
  · simp at hm
  have hj : m % nO < nO := Nat.mod_lt _ hn
  have ht : m / nO < T := Nat.div_lt_of_lt_mul (by rwa [Nat.mul_comm])
  have hij : m / nO * nO + m % nO = m := by rw [Nat.mul_comm]; exact Nat.div_add_mod m nO
  rw [← hij, a4 _ _ (by omega) hj, b4 _ _ (by omega) hj]
  congr 1
  refine Finset.sum_congr rfl (fun i hi => ?_)
  rw [Finset.mem_range] at hi
  unfold tapSum
  refine Finset.sum_congr rfl (fun d _ => ?_)
  congr 1
  unfold inBit
  split
  · apply hT
    have : ((m / nO : ℕ) - d : ℤ).toNat ≤ m / nO := by omega
    calc ((m / nO : ℕ) - d : ℤ).toNat * G.length + i < (((m / nO : ℕ) - d : ℤ).toNat + 1) * G.length := by
          rw [Nat.add_mul]; omega
      _ ≤ T * G.length := Nat.mul_le_mul_right _ (by omega)
  · rfl

/-- **C34.** Encoding is additive: if `r` is the bitwise XOR of `p` and `q` then the code of `r` is the
bitwise XOR of the codes. -/
theorem C34_additive {nO : ℕ} {G : ConvG} (hG : GoodG nO G) (uf : ConvUf) (p q r cp cq cr : List Int)
    (hp : IsBinary p) (hq : IsBinary q) (hrb : IsBinary r) (rnd : Int → Int)
    (hr : ∀ n : Int, |n| ≤ 2 ^ 53 → rnd n = n)
    (hs : ∀ j < nO, ∑ i ∈ Finset.range G.length, (tf G i j).sum ≤ 2 ^ 53)
    (h1 : codingConv rnd p G none uf = .ok cp) (h2 : codingConv rnd q G none uf = .ok cq)
    (h3 : codingConv rnd r G none uf = .ok cr) (hl1 : p.length = r.length) (hl2 : q.length = r.length)
    (hx : ∀ k, r.getD k 0 = (p.getD k 0 + q.getD k 0) % 2) :
    cr.length = cp.length ∧ cr.length = cq.length ∧
      ∀ m, m < cr.length → cr.getD m 0 = (cp.getD m 0 + cq.getD m 0) % 2 := by
  obtain ⟨_, a1, al, _, a4⟩ := C34_encoder hG uf p hp rnd hr hs
  obtain ⟨_, b1, bl, _, b4⟩ := C34_encoder hG uf q hq rnd hr hs
  obtain ⟨_, c1, cl, _, c4⟩ := C34_encoder hG uf r hrb rnd hr hs
  rw [h1] at a1; rw [h2] at b1; rw [h3] at c1
  cases a1; cases b1; cases c1
  rw [hl1] at al a4; rw [hl2] at bl b4
  refine ⟨by rw [al, cl], by rw [bl, cl], fun m hm => ?_⟩
  rcases Nat.eq_zero_or_pos nO with rfl | hn
  · rw [cl] at hm; simp at hm
  have hj : m % nO < nO := Nat.mod_lt _ hn
  have ht : m / nO < (r.length + G.length - 1) / G.length := Nat.div_lt_of_lt_mul (by rwa [cl] at hm)
  have hij : m / nO * nO + m % nO = m := by rw [Nat.mul_comm]; exact Nat.div_add_mod m nO
  rw [← hij, a4 _ _ ht hj, b4 _ _ ht hj, c4 _ _ ht hj, ← Int.add_emod, ← Finset.sum_add_distrib]
  apply sum_emod_congr
  intro i _
  unfold tapSum
  rw [← Finset.sum_add_distrib]
  apply sum_emod_congr
  intro d _
  rw [← mul_add]
  apply Int.ModEq.mul (Int.ModEq.refl _)
  unfold inBit
  split
  · rw [hx]; exact Int.mod_modEq _ _
  · rfl

/-- docstring example 2: two inputs, three outputs -/
def exConvG : ConvG := [[[1, 0], [0, 0], [1, 1]], [[0, 0, 0], [1, 0, 0], [0, 0, 1]]]

example : GoodG 3 exConvG := by
  refine ⟨by decide, ?_⟩
  intro g hg
  simp only [exConvG, List.mem_cons, List.not_mem_nil, or_false] at hg
  rcases hg with rfl | rfl
  · refine ⟨rfl, 2, by decide, ?_⟩
    intro r hr
    simp only [List.mem_cons, List.not_mem_nil, or_false] at hr
    rcases hr with rfl | rfl | rfl <;> refine ⟨rfl, ?_⟩ <;> intro x hx <;> simp at hx <;> omega
  · refine ⟨rfl, 3, by decide, ?_⟩
    intro r hr
    simp only [List.mem_cons, List.not_mem_nil, or_false] at hr
    rcases hr with rfl | rfl | rfl <;> refine ⟨rfl, ?_⟩ <;> intro x hx <;> simp at hx <;> omega

example : codingConv rnd53 [1, 1, 0, 1, 1] exConvG = .ok [1, 1, 1, 0, 1, 1, 1, 0, 0] := by decide +kernel

/-! ## C35 encoder with feedback -/

/-- **C35** (partial: exact arithmetic instead of double precision, and systematic outputs written with at
least two coefficients). The coded bits are those of the GF(2) feedback registers, for every pattern
length. -/
theorem C35_register_partial {nO : ℕ} {G : ConvG} {fb : Fb} (h : GoodCode nO G fb) (hd : DirectLong nO G fb)
    (p : List Int) (hp : IsBinary p) :
    ∃ c, codingConv id p G (fb.map Prod.fst) (fb.map Prod.snd) = .ok c ∧
      c.length = nO * ((p.length + G.length - 1) / G.length) ∧ IsBinary c ∧
      ∃ w : ℕ → ℤ → Int,
        (∀ i < G.length, IsRegister (poly fb i) (inBit p G.length i) (w i) ∧ ∀ t < 0, w i t = 0) ∧
        ∀ t j : ℕ, t < (p.length + G.length - 1) / G.length → j < nO → c.getD (t * nO + j) 0
          = encBit G.length (tf G) (fun i j => isDirect fb i j = true) (inBit p G.length) w j t := by
  obtain ⟨w, hw⟩ := exists_registers_zero fb p G.length
  obtain ⟨c, h1, h2, h3, h4⟩ := coding_code h hd p hp w (fun i _ => hw i)
  exact ⟨c, h1, by rw [h2, Nat.mul_comm]; rfl, h3, w, fun i _ => hw i, h4⟩

/-- the register contents of the specification are determined, so the existential in
`C35_register_partial` is a unique one -/
theorem C35_register_unique (f : List Int) (x w w' : ℤ → Int) (h : IsRegister f x w) (h' : IsRegister f x w')
    (h0 : ∀ t < 0, w t = 0) (h0' : ∀ t < 0, w' t = 0) (t : ℤ) : w t = w' t := by
  rcases lt_or_ge t 0 with ht | ht
  · rw [h0 t ht, h0' t ht]
  · obtain ⟨n, rfl⟩ := Int.eq_ofNat_of_zero_le ht
    induction n using Nat.strong_induction_on with
    | _ n ih =>
      rw [h n (by omega), h' n (by omega)]
      congr 2
      refine Finset.sum_congr rfl (fun d _ => ?_)
      congr 1
      rcases lt_or_ge ((n : ℤ) - (d + 1)) 0 with hd | hd
      · rw [h0 _ hd, h0' _ hd]
      · obtain ⟨m, hm⟩ := Int.eq_ofNat_of_zero_le hd
        rw [hm]
        exact ih m (by omega) (by omega)

/-- **C35** (partial: short patterns). In double precision the same holds as long as
`nIn * 2^(steps+1) <= 2^53`, e.g. for up to 52 steps of a single input code. -/
theorem C35_float_short_partial {nO : ℕ} {G : ConvG} {fb : Fb} (h : GoodCode nO G fb) (hd : DirectLong nO G fb)
    (p : List Int) (hp : IsBinary p) (rnd : Int → Int) (hr : ∀ n : Int, |n| ≤ 2 ^ 53 → rnd n = n)
    (hshort : (G.length : Int) * 2 ^ ((p.length + G.length - 1) / G.length + 1) ≤ 2 ^ 53) :
    codingConv rnd p G (fb.map Prod.fst) (fb.map Prod.snd)
      = codingConv id p G (fb.map Prod.fst) (fb.map Prod.snd) := by
  apply codingConv_round h.1 _ _ p hp hr (fun _ _ => 2 ^ ((p.length + G.length - 1) / G.length + 1))
  · intro j _
    rw [Finset.sum_const, Finset.card_range]
    simpa using hshort
  · intro i j _ _
    right
    refine ⟨fun f hf => (goodCode_poly h i f hf).2, ?_, ?_⟩
    · unfold nBlocks
      rw [pow_succ]
      omega
    · exact one_le_pow₀ (by norm_num)
  · intro i j hi hj
    exact contribution_ok h hd p i j hi hj

/-- docstring example 3 with a longer feedback polynomial: recursive systematic code -/
def exRscG : ConvG := [[[1, 0, 0, 0], [0, 0, 1, 1]]]
def exRscFb : Fb := some ([some [1, 1, 0, 1]], [[0, 1]])

theorem exRsc_good : GoodCode 2 exRscG exRscFb ∧ DirectLong 2 exRscG exRscFb ∧ Fits 2 exRscG exRscFb := by
  have b4 : ∀ a b c d : Int, (a = 0 ∨ a = 1) → (b = 0 ∨ b = 1) → (c = 0 ∨ c = 1) → (d = 0 ∨ d = 1) → IsBinary [a, b, c, d] := by
    intro a b c d ha hb hc hd x hx
    simp at hx
    rcases hx with rfl | rfl | rfl | rfl <;> assumption
  refine ⟨⟨⟨by decide, ?_⟩, ?_⟩, ?_, ?_⟩
  · intro g hg
    simp only [exRscG, List.mem_singleton] at hg
    subst hg
    refine ⟨rfl, 4, by decide, ?_⟩
    intro r hr
    simp only [List.mem_cons, List.not_mem_nil, or_false] at hr
    rcases hr with rfl | rfl
    · exact ⟨rfl, b4 _ _ _ _ (by simp) (by simp) (by simp) (by simp)⟩
    · exact ⟨rfl, b4 _ _ _ _ (by simp) (by simp) (by simp) (by simp)⟩
  · intro l u he
    simp only [exRscFb, Option.some.injEq, Prod.mk.injEq] at he
    obtain ⟨rfl, rfl⟩ := he
    refine ⟨⟨rfl, by simp⟩, ?_, ?_, ?_, ?_⟩
    · intro i j hi hj
      have hi' : i = 0 := by simp [exRscG] at hi; omega
      subst hi'
      have : j = 0 ∨ j = 1 := by omega
      rcases this with rfl | rfl <;> simp [flag]
    · intro f hf
      simp at hf
      subst hf
      exact ⟨b4 _ _ _ _ (by simp) (by simp) (by simp) (by simp), rfl⟩
    · intro i j hi hj _
      have hi' : i = 0 := by simp [exRscG] at hi; omega
      subst hi'
      simp
    · intro i j hi hj hfl _ d hd
      have hi' : i = 0 := by simp [exRscG] at hi; omega
      subst hi'
      have : j = 0 ∨ j = 1 := by omega
      rcases this with rfl | rfl
      · match d, hd with
        | 1, _ => rfl
        | 2, _ => rfl
        | 3, _ => rfl
        | d + 4, _ => simp [tf, exRscG]
      · simp [flag] at hfl
  · intro i j hi hj _
    have hi' : i = 0 := by simp [exRscG] at hi; omega
    subst hi'
    have : j = 0 ∨ j = 1 := by omega
    rcases this with rfl | rfl <;> simp [tf, exRscG]
  · intro l u he i j hi hj
    simp only [exRscFb, Option.some.injEq, Prod.mk.injEq] at he
    obtain ⟨rfl, rfl⟩ := he
    have hi' : i = 0 := by simp [exRscG] at hi; omega
    subst hi'
    refine ⟨?_, by simp⟩
    intro f hf
    simp at hf
    subst hf
    have : j = 0 ∨ j = 1 := by omega
    rcases this with rfl | rfl <;> simp [tf, exRscG]

/-- the impulse followed by `n` zeros -/
def impulse (n : ℕ) : List Int := 1 :: List.replicate n 0

/-- **C35** *violated* for long patterns: `lfilter` computes the recursion over double precision reals, whose
values grow without bound; after 104 steps of this valid code the coded bits differ from those of exact
arithmetic, i.e. from the GF(2) register. -/
theorem C35_negative_float :
    codingConv rnd53 (impulse 120) exRscG (exRscFb.map Prod.fst) (exRscFb.map Prod.snd)
      ≠ codingConv id (impulse 120) exRscG (exRscFb.map Prod.fst) (exRscFb.map Prod.snd) := by
  decide +kernel

/-- **C35** *violated* for transfer functions written with one coefficient: output 0 is declared systematic
(`use_feedback = 0`) but is passed through the recursive filter; the output is not the input 1,0,0,1. -/
theorem C35_negative_length_one :
    GoodCode 2 [[[1], [1]]] (some ([some [1, 1]], [[0, 1]])) ∧
    codingConv id [1, 0, 0, 1] [[[1], [1]]] (some [some [1, 1]]) (some [[0, 1]])
      = .ok [1, 1, 1, 1, 1, 1, 0, 0] := by
  refine ⟨⟨⟨by decide, ?_⟩, ?_⟩, by decide +kernel⟩
  · intro g hg
    simp only [List.mem_singleton] at hg
    subst hg
    refine ⟨rfl, 1, by decide, ?_⟩
    intro r hr
    simp only [List.mem_cons, List.not_mem_nil, or_false] at hr
    rcases hr with rfl | rfl <;> refine ⟨rfl, ?_⟩ <;> intro x hx <;> simp at hx <;> omega
  · intro l u he
    simp only [Option.some.injEq, Prod.mk.injEq] at he
    obtain ⟨rfl, rfl⟩ := he
    refine ⟨⟨rfl, by simp⟩, ?_, ?_, ?_, ?_⟩
    · intro i j hi hj
      have hi' : i = 0 := by simp at hi; omega
      subst hi'
      have : j = 0 ∨ j = 1 := by omega
      rcases this with rfl | rfl <;> simp [flag]
    · intro f hf
      simp at hf
      subst hf
      exact ⟨by intro x hx; simp at hx; omega, rfl⟩
    · intro i j hi hj _
      have hi' : i = 0 := by simp at hi; omega
      subst hi'
      simp
    · intro i j hi hj hfl _ d hd
      have hi' : i = 0 := by simp at hi; omega
      subst hi'
      have : j = 0 ∨ j = 1 := by omega
      rcases this with rfl | rfl
      · match d, hd with
        | d + 1, _ => simp [tf]
      · simp [flag] at hfl

example : codingConv rnd53 [1, 0, 1, 1, 0] exRscG (exRscFb.map Prod.fst) (exRscFb.map Prod.snd)
    = .ok [1, 0, 0, 0, 1, 1, 1, 0, 0, 1] := by decide +kernel

/-! ## C36 trellis -/

/-- **C36** (partial: codes that fit the trellis construction, exact arithmetic in the encoder). Walking
the trellis from the zero state with the (zero padded) input chunks gives the output of the encoder. -/
theorem C36_trellis_encoder_partial {nO : ℕ} {G : ConvG} {fb : Fb} (h : GoodCode nO G fb) (hd : DirectLong nO G fb)
    (hpos : 0 < nO) (hf : Fits nO G fb) (p : List Int) (hp : IsBinary p) (hlen : p.length % G.length = 0) :
    trellisCheck G (fb.map Prod.fst) = .ok () ∧
    codingConv id p G (fb.map Prod.fst) (fb.map Prod.snd)
      = .ok (trellisWalk G (fb.map Prod.fst) (fb.map Prod.snd) (List.replicate (memSizes G).sum 0)
          (rows G.length p)).1 := by
  have hG : 0 < G.length := List.length_pos_of_ne_nil h.1.1
  refine ⟨trellisCheck_ok (goodCode_fits h hpos hf), ?_⟩
  obtain ⟨w, hw⟩ := exists_registers_zero fb p G.length
  obtain ⟨c, h1, h2, h3, h4⟩ := coding_code h hd p hp w (fun i _ => hw i)
  have hwalk := walk_code h hpos hf p hp w (fun i _ => (hw i).1)
  rw [stateAt_zero G w (fun i _ => (hw i).2)] at hwalk
  have hpad : padTo G.length p = p := by
    unfold padTo
    rw [nBlocks_of_mod _ _ hG, if_neg (by omega)]
    simp
  rw [hpad] at hwalk
  rw [h1, hwalk]
  congr 1
  have huni : ∀ r ∈ (List.range (nBlocks p.length G.length)).map (fun (k : ℕ) => (List.range nO).map (fun j =>
      encBit G.length (tf G) (fun i j => isDirect fb i j = true) (inBit p G.length) w j k)), r.length = nO := by
    intro r hr
    rw [List.mem_map] at hr
    obtain ⟨k, _, rfl⟩ := hr
    simp
  apply ext_getD 0
  · rw [h2, flatten_uniform_length nO _ huni]
    simp
  · intro m hm
    rw [h2] at hm
    have hj : m % nO < nO := Nat.mod_lt _ hpos
    have ht : m / nO < nBlocks p.length G.length := Nat.div_lt_of_lt_mul (by rwa [Nat.mul_comm])
    have hij : m / nO * nO + m % nO = m := by rw [Nat.mul_comm]; exact Nat.div_add_mod m nO
    rw [← hij, h4 _ _ ht hj, flatten_getD 0 nO _ huni _ _ (by simpa using ht) hj,
      getD_map_lt _ 0 [] _ (by simpa using ht), getD_of_lt 0 (List.range _) (by simpa using ht), List.getElem_range,
      getD_map_lt _ 0 0 _ (by simpa using hj), getD_of_lt 0 (List.range _) (by simpa using hj), List.getElem_range]

/-- **C36.** Without feedback the trellis always describes the encoder, in double precision too. -/
theorem C36_no_feedback {nO : ℕ} {G : ConvG} (hG : GoodG nO G) (hpos : 0 < nO) (p : List Int) (hp : IsBinary p)
    (hlen : p.length % G.length = 0) (rnd : Int → Int) (hr : ∀ n : Int, |n| ≤ 2 ^ 53 → rnd n = n)
    (hs : ∀ j < nO, ∑ i ∈ Finset.range G.length, (tf G i j).sum ≤ 2 ^ 53) :
    codingConv rnd p G none none
      = .ok (trellisWalk G none none (List.replicate (memSizes G).sum 0) (rows G.length p)).1 := by
  have hc : GoodCode nO G none := ⟨hG, fun l u h => by cases h⟩
  have hd : DirectLong nO G none := fun i j _ _ h => by cases h
  have h2 := (C36_trellis_encoder_partial hc hd hpos (fun l u h => by cases h) p hp hlen).2
  refine Eq.trans ?_ h2
  apply codingConv_round hG none none p hp hr (fun i j => (tf G i j).sum) hs
  · intro i j _ _
    exact Or.inl ⟨rfl, le_rfl⟩
  · intro i j hi hj
    exact contribution_ok hc hd p i j hi hj

/-- **C36** *violated* for mixed codes: once a feedback dictionary is given, the trellis treats inputs
without polynomial as memoryless. Input 0 has feedback 1+D, input 1 has the transfer function 1+D without
feedback; the encoder and the trellis disagree. -/
theorem C36_negative_mixed :
    checkValidConv [0, 1, 0, 0] [[[0, 1]], [[1, 1]]] (some [some [1, 1]]) (some [[1], [0]]) = .ok () ∧
    codingConv id [0, 1, 0, 0] [[[0, 1]], [[1, 1]]] (some [some [1, 1]]) (some [[1], [0]]) = .ok [1, 1] ∧
    (trellisWalk [[[0, 1]], [[1, 1]]] (some [some [1, 1]]) (some [[1], [0]]) [0, 0] [[0, 1], [0, 0]]).1 = [1, 0] := by
  decide +kernel

/-- the recursive systematic code meets the hypotheses -/
example : codingConv id [1, 0, 1, 1] exRscG (exRscFb.map Prod.fst) (exRscFb.map Prod.snd)
    = .ok (trellisWalk exRscG (exRscFb.map Prod.fst) (exRscFb.map Prod.snd) [0, 0, 0] [[1], [0], [1], [1]]).1 := by
  decide +kernel

end Verif
