import Verif.Lemmas.LinearCode
import Verif.Lemmas.Bipolar
import Verif.Lemmas.ArgminSet

/-!
# Linear block codes (C30-C33) and enumeration helpers (C40, C41)

`G` has `k = G.length ≥ 1` rows and `n ≥ 1` columns.
-/

namespace Verif
open Spec

/-! ## C30 encoder -/

/-- **C30.** Output length `n * ceil(len / k)`; bit `j` of block `r` is the GF(2) combination of row
bits with the (zero padded) data block `r`. -/
theorem C30_encoder {n : ℕ} {G : List (List Int)} (hG : BinaryMatrix n G) (hk : 0 < G.length)
    (p : List Int) (hp : IsBinary p) :
    ∃ c, codingLinear p G = .ok c ∧ IsBinary c ∧
      c.length = n * ((p.length + G.length - 1) / G.length) ∧
      ∀ r j, r < (p.length + G.length - 1) / G.length → j < n →
        c.getD (r * n + j) 0 = codeBit G (block p G.length r) j := by
  have hc := cols_eq hG hk
  have hu : ∀ r ∈ (rows G.length (padTo G.length p)).map (vecMat G), r.length = n := by
    intro r hr
    rw [List.mem_map] at hr
    obtain ⟨u, _, rfl⟩ := hr
    rw [vecMat_length, hc]
  refine ⟨_, codingLinear_eq hG hk hp, ?_, ?_, ?_⟩
  · intro x hx
    rw [List.mem_flatten] at hx
    obtain ⟨r, hr, hx⟩ := hx
    rw [List.mem_map] at hr
    obtain ⟨u, _, rfl⟩ := hr
    exact vecMat_binary G u x hx
  · rw [flatten_uniform_length n _ hu, List.length_map, rows_padTo_length _ hk, Nat.mul_comm]
    rfl
  · intro r j hr hj
    have hr' : r < (rows G.length (padTo G.length p)).length := by rw [rows_padTo_length _ hk]; exact hr
    have hrl := hr'
    rw [rows_length] at hrl
    rw [flatten_getD 0 n _ hu r j (by rw [List.length_map]; exact hr') hj, getD_map_lt _ [] [] _ hr',
      vecMat_getD _ _ (mem_rows_length _ _ _ (mem_of_getD [] _ hr')) j (by omega)]
    unfold codeBit
    apply sum_emod_congr
    intro i hi
    unfold seq block
    rw [rows_getD 0 _ _ r i hrl hi, padTo_getD]

/-- bitwise XOR of two lists -/
def xorL (a b : List Int) : List Int := List.zipWith (fun x y => (x + y) % 2) a b

theorem xorL_getD (a b : List Int) (h : a.length = b.length) (i : ℕ) :
    (xorL a b).getD i 0 = (a.getD i 0 + b.getD i 0) % 2 := by
  unfold xorL
  rcases Nat.lt_or_ge i a.length with hi | hi
  · rw [zipWith_getD _ 0 0 0 _ _ hi (by omega)]
  · rw [getD_of_le 0 _ (by simp; omega), getD_of_le 0 _ hi, getD_of_le 0 _ (by omega)]; rfl

theorem xorL_binary (a b : List Int) : IsBinary (xorL a b) := by
  intro x hx
  unfold xorL at hx
  obtain ⟨i, hi, rfl⟩ := List.getElem_of_mem hx
  rw [List.getElem_zipWith]
  exact Int.emod_two_eq_zero_or_one _

theorem codeBit_xor (G : List (List Int)) (u v w : ℕ → Int) (j : ℕ)
    (h : ∀ i < G.length, w i = (u i + v i) % 2) :
    codeBit G w j = (codeBit G u j + codeBit G v j) % 2 := by
  unfold codeBit
  rw [← Int.add_emod, ← Finset.sum_add_distrib]
  apply sum_emod_congr
  intro i hi
  rw [h i hi, ← add_mul]
  exact Int.ModEq.mul (Int.mod_modEq _ _) (Int.ModEq.refl _)

/-- **C30.** Encoding is additive: the XOR of two patterns is encoded to the XOR of the codes. -/
theorem C30_additive {n : ℕ} {G : List (List Int)} (hG : BinaryMatrix n G) (hk : 0 < G.length)
    (p q : List Int) (hp : IsBinary p) (hq : IsBinary q) (hl : p.length = q.length) :
    ∃ cp cq, codingLinear p G = .ok cp ∧ codingLinear q G = .ok cq ∧
      codingLinear (xorL p q) G = .ok (xorL cp cq) := by
  obtain ⟨cp, h1, hb1, hl1, hv1⟩ := C30_encoder hG hk p hp
  obtain ⟨cq, h2, hb2, hl2, hv2⟩ := C30_encoder hG hk q hq
  obtain ⟨cx, h3, hb3, hl3, hv3⟩ := C30_encoder hG hk (xorL p q) (xorL_binary p q)
  have hxl : (xorL p q).length = p.length := by simp [xorL, hl]
  refine ⟨cp, cq, h1, h2, ?_⟩
  rw [h3]
  congr 1
  rw [hxl] at hl3 hv3
  rw [← hl] at hl2 hv2
  apply ext_getD 0 (by simp [xorL, hl1, hl2, hl3])
  intro i hi
  rw [hl3] at hi
  rcases Nat.eq_zero_or_pos n with rfl | hn
  · simp at hi
  have hr : i / n < (p.length + G.length - 1) / G.length := Nat.div_lt_of_lt_mul hi
  have hj : i % n < n := Nat.mod_lt _ hn
  have hij : i / n * n + i % n = i := by rw [Nat.mul_comm]; exact Nat.div_add_mod i n
  rw [xorL_getD _ _ (by rw [hl1, hl2]), ← hij, hv1 _ _ hr hj, hv2 _ _ hr hj, hv3 _ _ hr hj]
  exact codeBit_xor G _ _ _ _ (fun i _ => xorL_getD p q hl _)

/-- **C30.** Blocks are encoded independently: whole blocks can be encoded separately. -/
theorem C30_concat {n : ℕ} {G : List (List Int)} (hG : BinaryMatrix n G) (hk : 0 < G.length)
    (p q : List Int) (hp : IsBinary p) (hq : IsBinary q) (hd : p.length % G.length = 0) :
    ∃ cp cq, codingLinear p G = .ok cp ∧ codingLinear q G = .ok cq ∧
      codingLinear (p ++ q) G = .ok (cp ++ cq) := by
  have hpq : IsBinary (p ++ q) := by
    intro x hx
    rw [List.mem_append] at hx
    rcases hx with hx | hx
    · exact hp x hx
    · exact hq x hx
  refine ⟨_, _, codingLinear_eq hG hk hp, codingLinear_eq hG hk hq, ?_⟩
  rw [codingLinear_eq hG hk hpq]
  have e0 : padTo G.length p = p := by
    unfold padTo
    rw [nBlocks_of_mod _ _ hk, if_neg (by omega)]
    simp
  have e1 : padTo G.length (p ++ q) = p ++ padTo G.length q := by
    unfold padTo
    rw [nBlocks_of_mod _ _ hk, nBlocks_of_mod _ _ hk, List.length_append, List.append_assoc]
    rw [show (p.length + q.length) % G.length = q.length % G.length by
      rw [Nat.add_mod, hd, Nat.zero_add, Nat.mod_mod]]
  rw [e0, e1]
  congr 1
  rw [← List.flatten_append, ← List.map_append]
  congr 2
  have hp2 := flatten_rows G.length hk p hd
  have hq2 := flatten_rows G.length hk (padTo G.length q) (by rw [padTo_length _ hk]; simp)
  have := rows_flatten G.length hk (rows G.length p ++ rows G.length (padTo G.length q)) (by
    intro r hr
    rw [List.mem_append] at hr
    rcases hr with hr | hr <;> exact mem_rows_length _ _ _ hr)
  rw [List.flatten_append, hp2, hq2] at this
  exact this

/-- **C30**, guard: a generator matrix without rows raises. -/
theorem C30_no_rows (p : List Int) (hp : IsBinary p) : codingLinear p [] = .error .zeroDivision := by
  unfold codingLinear
  rw [checkBinary_ok hp, checkBinary_ok (by intro x hx; simp at hx)]
  rfl

/-- the [7,4] Hamming code used as example below -/
def exG : List (List Int) := [[1, 0, 0, 0, 1, 1, 0], [0, 1, 0, 0, 1, 0, 1], [0, 0, 1, 0, 0, 1, 1], [0, 0, 0, 1, 1, 1, 1]]

example : BinaryMatrix 7 exG := by
  intro r hr
  simp [exG] at hr
  rcases hr with rfl | rfl | rfl | rfl <;> refine ⟨rfl, ?_⟩ <;> intro x hx <;> simp at hx <;> omega
example : codingLinear [1, 0, 1, 1, 1] exG = .ok [1, 0, 1, 1, 0, 1, 0, 1, 0, 0, 0, 1, 1, 0] := by decide +kernel

/-! ## C31, C32 decoder -/

/-- decoded blocks of the linear decoder: minimal distance, in specification terms -/
theorem linear_blocks {n : ℕ} {G : List (List Int)} (hG : BinaryMatrix n G) (hk : 0 < G.length)
    (hn : 0 < n) (rcv : List Int) (hr : IsBinary rcv) :
    ∃ out, decodingLinear rcv G = .ok out ∧ out.length = rcv.length / n * G.length ∧
      ∀ r, r < rcv.length / n → Word G.length ((rows G.length out).getD r []) ∧
        ∀ v, Word G.length v →
          dist n (codeBit G (block out G.length r)) (block rcv n r) ≤
            dist n (codeBit G (seq v)) (block rcv n r) := by
  have hc := cols_eq hG hk
  have hpick := fun b => linear_pick G b
  choose pick hw hget hmin using hpick
  have hout : mlDecoding (getBinPerm G.length) ((getBinPerm G.length).map (vecMat G)) (rows n rcv)
      = ((rows n rcv).map pick).flatten := by
    unfold mlDecoding
    congr 1
    exact List.map_congr_left (fun b _ => hget b)
  have huni : ∀ r ∈ (rows n rcv).map pick, r.length = G.length := by
    intro r hr
    rw [List.mem_map] at hr
    obtain ⟨b, _, rfl⟩ := hr
    exact (hw b).1
  refine ⟨_, decodingLinear_eq hG hk hn hr, ?_, ?_⟩
  · rw [hout, flatten_uniform_length _ _ huni, List.length_map, rows_length]
  · intro r hrr
    have hlt : r < (rows n rcv).length := by rw [rows_length]; exact hrr
    set b := (rows n rcv).getD r [] with hbdef
    have hbw : Word n b := rows_word n hr b (mem_of_getD [] _ hlt)
    have hrow : (rows G.length ((rows n rcv).map pick).flatten).getD r [] = pick b := by
      rw [rows_flatten _ hk _ huni, getD_map_lt _ [] [] _ hlt]
    rw [hout, hrow]
    refine ⟨hw b, fun v hv => ?_⟩
    have key : ∀ u, Word G.length u → (∀ f : ℕ → Int, (∀ i < G.length, f i = seq u i) →
        (dist n (codeBit G f) (block rcv n r) : Int) = hammingDist (vecMat G u) b) := by
      intro u hu f hf
      rw [hammingDist_eq n _ _ ⟨by rw [vecMat_length, hc], vecMat_binary G u⟩ hbw]
      congr 1
      apply dist_congr
      · intro j hj
        show _ = (vecMat G u).getD j 0
        rw [vecMat_getD G u hu.1 j (by omega)]
        exact sum_emod_congr 2 _ _ _ (fun i hi => by rw [hf i hi])
      · intro i hi
        show rcv.getD (r * n + i) 0 = b.getD i 0
        rw [hbdef, rows_getD 0 n rcv r i hrr hi]
    have h1 := key (pick b) (hw b) (block ((rows n rcv).map pick).flatten G.length r) (by
      intro i hi
      show ((rows n rcv).map pick).flatten.getD (r * G.length + i) 0 = _
      rw [flatten_getD 0 _ _ huni r i (by rw [List.length_map]; exact hlt) hi, getD_map_lt _ [] [] _ hlt]
      rfl)
    have h2 := key v hv (seq v) (fun _ _ => rfl)
    have := hmin b v hv
    rw [← h1, ← h2] at this
    exact_mod_cast this

/-- **C32.** The decoder is maximum likelihood: for each complete received block `r` it returns a data
word `out[r*k .. r*k+k)` whose codeword is at minimal Hamming distance among all `2^k` codewords. -/
theorem C32_maximum_likelihood {n : ℕ} {G : List (List Int)} (hG : BinaryMatrix n G) (hk : 0 < G.length)
    (hn : 0 < n) (rcv : List Int) (hr : IsBinary rcv) :
    ∃ out, decodingLinear rcv G = .ok out ∧ IsBinary out ∧ out.length = rcv.length / n * G.length ∧
      ∀ r, r < rcv.length / n → ∀ v, Word G.length v →
          dist n (codeBit G (block out G.length r)) (block rcv n r) ≤
            dist n (codeBit G (seq v)) (block rcv n r) := by
  obtain ⟨out, h1, h2, h3⟩ := linear_blocks hG hk hn rcv hr
  refine ⟨out, h1, ?_, h2, fun r hr => (h3 r hr).2⟩
  have hfl := flatten_rows G.length hk out (by rw [h2]; simp)
  intro x hx
  rw [← hfl, List.mem_flatten] at hx
  obtain ⟨row, hrow, hx⟩ := hx
  obtain ⟨r, hr, rfl⟩ := List.getElem_of_mem hrow
  have hr' : r < rcv.length / n := by
    rw [rows_length, h2, Nat.mul_div_cancel _ hk] at hr; exact hr
  have := (h3 r hr').1.2
  rw [getD_of_lt [] _ hr] at this
  exact this x hx

/-- **C32.** If any two codewords of different data differ in at least `2t+1` positions and every block
of the received vector differs from the transmitted one in at most `t` positions, decoding returns the
data (followed by the padding zeros). -/
theorem C32_corrects_errors {n t : ℕ} {G : List (List Int)} (hG : BinaryMatrix n G) (hk : 0 < G.length)
    (hn : 0 < n)
    (hdist : ∀ u v, Word G.length u → Word G.length v → u ≠ v →
      2 * t + 1 ≤ dist n (codeBit G (seq u)) (codeBit G (seq v)))
    (p c rcv : List Int) (hp : IsBinary p) (hc : codingLinear p G = .ok c) (hr : IsBinary rcv)
    (hl : rcv.length = c.length) (herr : ∀ r, r < c.length / n → dist n (block c n r) (block rcv n r) ≤ t) :
    decodingLinear rcv G
      = .ok (p ++ List.replicate ((p.length + G.length - 1) / G.length * G.length - p.length) 0) := by
  obtain ⟨c', hc', hcb, hcl, hcv⟩ := C30_encoder hG hk p hp
  have : c' = c := by rw [hc] at hc'; exact (Except.ok.inj hc').symm
  subst this
  have hnb : rcv.length / n = (p.length + G.length - 1) / G.length := by
    rw [hl, hcl, Nat.mul_div_cancel_left _ hn]
  obtain ⟨out, h1, h2, h3⟩ := linear_blocks hG hk hn rcv hr
  rw [h1]
  congr 1
  show out = padTo G.length p
  have hpl := padTo_length G.length hk p
  have hfo := flatten_rows G.length hk out (by rw [h2]; simp)
  have hfp := flatten_rows G.length hk (padTo G.length p) (by rw [hpl]; simp)
  rw [← hfo, ← hfp]
  congr 1
  have hlo : (rows G.length out).length = (p.length + G.length - 1) / G.length := by
    rw [rows_length, h2, Nat.mul_div_cancel _ hk, hnb]
  have hlp : (rows G.length (padTo G.length p)).length = (p.length + G.length - 1) / G.length :=
    rows_padTo_length _ hk p
  apply ext_getD [] (by rw [hlo, hlp])
  intro r hr'
  have hrb : r < (p.length + G.length - 1) / G.length := by rw [← hlo]; exact hr'
  obtain ⟨hw, hmin⟩ := h3 r (by rw [hnb]; exact hrb)
  set u := (rows G.length out).getD r [] with hu
  set v := (rows G.length (padTo G.length p)).getD r [] with hv
  have hvw : Word G.length v := rows_word _ (padTo_binary _ hp) v (mem_of_getD [] _ (by rw [hlp]; exact hrb))
  by_contra hne
  have hd := hdist u v hw hvw hne
  have hmv := hmin v hvw
  -- identify the sequences
  have eu : ∀ j < n, codeBit G (block out G.length r) j = codeBit G (seq u) j := by
    intro j _
    apply sum_emod_congr
    intro i hi
    have : seq u i = block out G.length r i := by
      show u.getD i 0 = out.getD (r * G.length + i) 0
      rw [hu, rows_getD 0 _ _ r i (by rw [← rows_length]; exact hr') hi]
    rw [this]
  have ev : ∀ j < n, codeBit G (seq v) j = block c' n r j := by
    intro j hj
    show _ = c'.getD (r * n + j) 0
    rw [hcv r j hrb hj]
    apply sum_emod_congr
    intro i hi
    have : seq v i = block p G.length r i := by
      show v.getD i 0 = p.getD (r * G.length + i) 0
      rw [hv, rows_getD 0 _ _ r i (by rw [← rows_length, hlp]; exact hrb) hi, padTo_getD]
    rw [this]
  have hcr := herr r (by rw [hcl, Nat.mul_div_cancel_left _ hn]; exact hrb)
  rw [dist_congr n eu (fun _ _ => rfl), dist_congr n (a := codeBit G (seq v)) ev (fun _ _ => rfl)] at hmv
  have htri := dist_triangle n (codeBit G (seq u)) (block rcv n r) (codeBit G (seq v))
  have : dist n (block rcv n r) (codeBit G (seq v)) ≤ t := by
    rw [dist_comm, dist_congr n ev (fun _ _ => rfl)]; exact hcr
  omega

/-- **C31.** If the rows of `G` are linearly independent, decoding inverts encoding: the data followed
by the padding zeros is returned. -/
theorem C31_roundtrip {n : ℕ} {G : List (List Int)} (hG : BinaryMatrix n G) (hk : 0 < G.length)
    (hn : 0 < n) (hind : RowsIndependent n G) (p : List Int) (hp : IsBinary p) :
    ∃ c, codingLinear p G = .ok c ∧ decodingLinear c G
      = .ok (p ++ List.replicate ((p.length + G.length - 1) / G.length * G.length - p.length) 0) := by
  obtain ⟨c, hc, hcb, hcl, hcv⟩ := C30_encoder hG hk p hp
  refine ⟨c, hc, C32_corrects_errors (t := 0) hG hk hn ?_ p c c hp hc hcb rfl ?_⟩
  · intro u v hu hv hne
    by_contra hcon
    have h0 : dist n (codeBit G (seq u)) (codeBit G (seq v)) = 0 := by omega
    apply hne
    apply vecMat_inj hk hG hind u v hu hv
    have hcols := cols_eq hG hk
    apply ext_getD 0 (by rw [vecMat_length, vecMat_length])
    intro j hj
    rw [vecMat_length] at hj
    rw [vecMat_getD G u hu.1 j hj, vecMat_getD G v hv.1 j hj]
    unfold dist at h0
    rw [Finset.card_eq_zero, Finset.filter_eq_empty_iff] at h0
    have := h0 (Finset.mem_range.2 (show j < n by omega))
    simpa using this
  · intro r _
    simp [dist]

/-- the hypotheses hold for the Hamming code: one error per block is corrected -/
example : decodingLinear [1, 0, 1, 1, 1, 1, 0, 1, 1, 0, 0, 1, 1, 0] exG = .ok [1, 0, 1, 1, 1, 0, 0, 0] := by
  decide +kernel

/-- the Hamming code has minimum distance 3, so the hypothesis of `C32_corrects_errors` holds with `t = 1` -/
example : ∀ u v, Word 4 u → Word 4 v → u ≠ v →
    2 * 1 + 1 ≤ dist 7 (codeBit exG (seq u)) (codeBit exG (seq v)) := by
  have : ∀ u ∈ getBinPerm 4, ∀ v ∈ getBinPerm 4, u ≠ v →
      2 * 1 + 1 ≤ dist 7 (codeBit exG (seq u)) (codeBit exG (seq v)) := by decide +kernel
  exact fun u v hu hv => this u ((mem_getBinPerm 4 u).2 hu) v ((mem_getBinPerm 4 v).2 hv)

example : RowsIndependent 7 exG := by
  intro u hu h
  have h0 := h 0 (by decide); have h1 := h 1 (by decide); have h2 := h 2 (by decide); have h3 := h 3 (by decide)
  obtain ⟨hl, hb⟩ := hu
  match u, hl with
  | [a, b, c, d], _ =>
    have := hb a (by simp); have := hb b (by simp); have := hb c (by simp); have := hb d (by simp)
    simp [codeBit, seq, exG, Finset.sum_range_succ] at h0 h1 h2 h3
    intro x hx
    simp at hx
    omega

/-! ## C33 error-probability mode -/

/-- **C33** (partial: the sentence on the caller's array fails, see `C33_negative_mutates`).
`error_prob=True` returns the same bits; the reported value of a block is 0 if the block is a codeword
and otherwise 1 over the number of data words whose codewords are nearest. -/
theorem C33_error_prob_partial {n : ℕ} {G : List (List Int)} (hG : BinaryMatrix n G) (hk : 0 < G.length)
    (hn : 0 < n) (rcv : List Int) (hr : IsBinary rcv) :
    ∃ out pe after, decodingLinear rcv G = .ok out ∧ decodingLinearErr rcv G = .ok (out, pe, after) ∧
      pe.length = rcv.length / n ∧ ∀ r, r < rcv.length / n →
        ((∃ v, Word G.length v ∧ dist n (codeBit G (seq v)) (block rcv n r) = 0) → pe.getD r 0 = 0) ∧
        ((∀ v, Word G.length v → dist n (codeBit G (seq v)) (block rcv n r) ≠ 0) →
          ∃ d : ℕ, (∀ v, Word G.length v → d ≤ dist n (codeBit G (seq v)) (block rcv n r)) ∧
            (∃ v, Word G.length v ∧ dist n (codeBit G (seq v)) (block rcv n r) = d) ∧
            pe.getD r 0 = 1 / (((getBinPerm G.length).countP
              (fun v => decide (dist n (codeBit G (seq v)) (block rcv n r) = d)) : ℕ) : ℚ)) := by
  have hc := cols_eq hG hk
  have hblk : ∀ b, (mlBlockErr (getBinPerm G.length) ((getBinPerm G.length).map (vecMat G)) b).1
      = (getBinPerm G.length).getD (argmin (((getBinPerm G.length).map (vecMat G)).map (fun c => hammingDist c b))) [] := by
    intro b
    unfold mlBlockErr
    simp only []
    split
    · rename_i hpos
      rw [argmin_set_zero _ ?_ hpos]
      intro h
      have := congrArg List.length h
      rw [List.length_map, List.length_map, getBinPerm_length, List.length_nil] at this
      exact absurd this (by positivity)
    · rfl
  refine ⟨_, _, _, decodingLinear_eq hG hk hn hr, by
    unfold decodingLinearErr
    rw [checkBinary_ok hr, checkBinary_ok (binary_flatten hG)]
    simp only [bind, Except.bind]
    rw [hc, if_neg (by omega)]
    simp only [pure, Except.pure]
    congr 1
    refine Prod.ext ?_ rfl
    show (List.map (fun x => x.1) (List.map (mlBlockErr _ _) (rows n rcv))).flatten = (List.map _ (rows n rcv)).flatten
    rw [List.map_map]
    congr 1
    exact List.map_congr_left (fun b _ => hblk b), ?_, ?_⟩
  · simp [mlDecodingErr, rows_length]
  · intro r hrr
    have hlt : r < (rows n rcv).length := by rw [rows_length]; exact hrr
    set b := (rows n rcv).getD r [] with hbdef
    have hbw : Word n b := rows_word n hr b (mem_of_getD [] _ hlt)
    have hdist : ∀ v, Word G.length v →
        hammingDist (vecMat G v) b = (dist n (codeBit G (seq v)) (block rcv n r) : Int) := by
      intro u hu
      rw [hammingDist_eq n _ _ ⟨by rw [vecMat_length, hc], vecMat_binary G u⟩ hbw]
      congr 1
      apply dist_congr
      · intro j hj
        exact vecMat_getD G u hu.1 j (by omega)
      · intro i hi
        show b.getD i 0 = rcv.getD (r * n + i) 0
        rw [hbdef, rows_getD 0 n rcv r i hrr hi]
    have hpe : (mlDecodingErr (getBinPerm G.length) ((getBinPerm G.length).map (vecMat G)) (rows n rcv)).2.1.getD r 0
        = (mlBlockErr (getBinPerm G.length) ((getBinPerm G.length).map (vecMat G)) b).2.1 := by
      unfold mlDecodingErr
      simp only [List.map_map]
      rw [getD_map_lt _ [] 0 _ hlt]
      rfl
    rw [hpe]
    set h := ((getBinPerm G.length).map (vecMat G)).map (fun c => hammingDist c b) with hh
    have hhl : h.length = 2 ^ G.length := by rw [hh, List.length_map, List.length_map, getBinPerm_length]
    have hne : h ≠ [] := by
      intro e
      rw [e, List.length_nil] at hhl
      exact absurd hhl.symm (by positivity)
    obtain ⟨a1, a2, _⟩ := argmin_getD_spec 0 h hne
    have hval : ∀ x, x < 2 ^ G.length → h.getD x 0
        = (dist n (codeBit G (seq ((getBinPerm G.length).getD x []))) (block rcv n r) : Int) := by
      intro x hx
      have hx' : x < (getBinPerm G.length).length := by rw [getBinPerm_length]; exact hx
      rw [hh, List.map_map, getD_map_lt _ [] 0 _ hx']
      exact hdist _ (getBinPerm_word _ _ (mem_of_getD [] _ hx'))
    have hpw : Word G.length ((getBinPerm G.length).getD (argmin h) []) :=
      getBinPerm_word _ _ (mem_of_getD [] _ (by rw [getBinPerm_length, ← hhl]; exact a1))
    have hminv := hval _ (by rw [← hhl]; exact a1)
    have hle : ∀ v, Word G.length v → h.getD (argmin h) 0 ≤ (dist n (codeBit G (seq v)) (block rcv n r) : Int) := by
      intro v hv
      obtain ⟨x, hx, _, e⟩ := word_index _ v hv
      have := a2 x (by rw [hhl]; exact hx)
      rwa [hval x hx, e] at this
    unfold mlBlockErr
    simp only []
    rw [← hh]
    constructor
    · rintro ⟨v, hv, h0⟩
      have := hle v hv
      rw [h0] at this
      rw [if_neg (by push Not; exact_mod_cast this)]
    · intro hno
      have hpos : h.getD (argmin h) 0 > 0 := by
        rw [hminv]
        have := hno _ hpw
        have : 0 < dist n (codeBit G (seq ((getBinPerm G.length).getD (argmin h) []))) (block rcv n r) := Nat.pos_of_ne_zero this
        exact_mod_cast this
      rw [if_pos hpos]
      refine ⟨dist n (codeBit G (seq ((getBinPerm G.length).getD (argmin h) []))) (block rcv n r), ?_,
        ⟨_, hpw, rfl⟩, ?_⟩
      · intro v hv
        have := hle v hv
        rw [hminv] at this
        exact_mod_cast this
      · simp only []
        congr 2
        rw [hminv, List.count, hh, List.map_map, List.countP_map]
        apply List.countP_congr
        intro v hv
        simp only [Function.comp_apply, beq_iff_eq, decide_eq_true_eq]
        rw [hdist v (getBinPerm_word _ _ hv)]
        exact_mod_cast Iff.rfl

/-- **C33** *violated*: with `error_prob=True` the caller's pattern is overwritten by the corrected
codewords (here a [3,1] repetition code, received 101). -/
theorem C33_negative_mutates :
    decodingLinearErr [1, 0, 1] [[1, 1, 1]] = .ok ([1], [1], [1, 1, 1]) := by decide +kernel

/-- the reported value is 1 over the number of nearest codewords: a [2,1] repetition code block 01 -/
example : decodingLinearErr [0, 1] [[1, 1]] = .ok ([0], [1 / 2], [0, 0]) := by decide +kernel

/-! ## C40 enumeration and Hamming helper -/

/-- **C40.** `get_bin_perm(k)` has `2^k` rows; row `x` is the binary word whose MSB-first value is
`x`; every binary word of length `k` occurs exactly once. -/
theorem C40_bin_perm (k : ℕ) :
    (getBinPerm k).length = 2 ^ k ∧ (getBinPerm k).Nodup ∧
    (∀ u, u ∈ getBinPerm k ↔ Word k u) ∧
    ∀ x, x < 2 ^ k → leVal ((getBinPerm k).getD x []).reverse = x := by
  have hval : ∀ x, x < 2 ^ k → leVal ((getBinPerm k).getD x []).reverse = x := by
    intro x hx
    rw [getBinPerm_eq, getD_map_lt _ 0 [] _ (by simpa using hx), getD_of_lt 0 _ (by simpa using hx),
      List.getElem_range, List.reverse_reverse]
    exact leVal_symBits k x (by positivity) (by exact_mod_cast hx)
  refine ⟨getBinPerm_length k, ?_, mem_getBinPerm k, hval⟩
  rw [List.nodup_iff_injective_getElem]
  intro ⟨i, hi⟩ ⟨j, hj⟩ h
  simp only at h
  rw [getBinPerm_length] at hi hj
  have h1 := hval i hi
  have h2 := hval j hj
  rw [getD_of_lt [] _ (by rw [getBinPerm_length]; exact hi)] at h1
  rw [getD_of_lt [] _ (by rw [getBinPerm_length]; exact hj)] at h2
  rw [h, h2] at h1
  simpa using h1.symm

/-- **C40.** `hamming` returns the matrix of Hamming distances of binary words, and for each pattern
the first codeword index at minimal distance. -/
theorem C40_hamming (l : ℕ) (pats codebook : List (List Int)) (hp : ∀ b ∈ pats, Word l b)
    (hcb : ∀ c ∈ codebook, Word l c) (hne : codebook ≠ []) :
    (∀ i j, i < codebook.length → j < pats.length →
      ((hamming pats codebook).1.getD i []).getD j 0
        = dist l (seq (codebook.getD i [])) (seq (pats.getD j []))) ∧
    (hamming pats codebook).2.length = pats.length ∧
    ∀ j, j < pats.length → (hamming pats codebook).2.getD j 0 < codebook.length ∧
      (∀ i, i < codebook.length →
        dist l (seq (codebook.getD ((hamming pats codebook).2.getD j 0) [])) (seq (pats.getD j []))
          ≤ dist l (seq (codebook.getD i [])) (seq (pats.getD j []))) ∧
      (∀ i, i < (hamming pats codebook).2.getD j 0 →
        dist l (seq (codebook.getD ((hamming pats codebook).2.getD j 0) [])) (seq (pats.getD j []))
          < dist l (seq (codebook.getD i [])) (seq (pats.getD j []))) := by
  have hd : ∀ i j, i < codebook.length → j < pats.length →
      hammingDist (codebook.getD i []) (pats.getD j []) = dist l (seq (codebook.getD i [])) (seq (pats.getD j [])) :=
    fun i j hi hj => hammingDist_eq l _ _ (hcb _ (mem_of_getD [] _ hi)) (hp _ (mem_of_getD [] _ hj))
  refine ⟨fun i j hi hj => ?_, by simp [hamming], fun j hj => ?_⟩
  · unfold hamming
    rw [getD_map_lt _ [] [] _ hi, getD_map_lt _ [] 0 _ hj, hd i j hi hj]
  · unfold hamming
    simp only []
    rw [getD_map_lt _ [] 0 _ hj]
    obtain ⟨i, hi, he, h1, h2⟩ := ml_pick codebook codebook rfl hne (pats.getD j [])
    rw [he]
    refine ⟨hi, fun i' hi' => ?_, fun i' hi' => ?_⟩
    · have := h1 i' hi'
      rw [hd _ _ hi hj, hd _ _ hi' hj] at this
      exact_mod_cast this
    · have := h2 i' hi'
      rw [hd _ _ hi hj, hd _ _ (by omega) hj] at this
      exact_mod_cast this

example : getBinPerm 2 = [[0, 0], [0, 1], [1, 0], [1, 1]] := by decide
example : hamming [[0, 1, 1]] [[0, 0, 0], [1, 1, 1]] = ([[2], [1]], [1]) := by decide

/-! ## C41 bin2uint / uint2bin -/

theorem bin2uint_eq (v : List Int) : bin2uint v = leVal v.reverse := by
  unfold bin2uint
  rw [← dotPow2_eq]
  unfold dotPow2
  rw [sum_zipWith_eq (· * ·) 0 0 _ _ (by simp), sum_zipWith_eq (· * ·) 0 0 _ _ (by simp)]
  rw [List.length_reverse, ← Finset.sum_range_reflect]
  refine Finset.sum_congr rfl (fun i hi => ?_)
  rw [Finset.mem_range] at hi
  have h1 : v.length - 1 - i < v.length := by omega
  rw [getD_map_lt _ 0 0 _ (by simpa using h1), getD_map_lt _ 0 0 _ (by simpa using hi),
    getD_of_lt 0 (List.range v.length) (show v.length - 1 - i < _ by simpa using h1),
    getD_of_lt 0 (List.range v.length) (show i < _ by simpa using hi), getD_of_lt 0 v h1,
    getD_of_lt 0 v.reverse (by simpa using hi)]
  simp only [List.getElem_range, List.getElem_reverse]
  congr 2
  omega

theorem uint2bin_eq (x : Int) (n : ℕ) : uint2bin x n = (symBits n x).reverse := by
  apply ext_getD 0 (by simp [uint2bin, symBits_length])
  intro i hi
  have hi' : i < n := by simpa [uint2bin] using hi
  unfold uint2bin
  rw [getD_map_lt _ 0 0 _ (by simpa using hi'), getD_of_lt 0 _ (by simpa using hi'),
    getD_of_lt 0 _ (by simpa [symBits_length] using hi'), List.getElem_reverse, List.getElem_range]
  simp only [symBits, List.getElem_map, List.getElem_range, List.length_map, List.length_range]
  rcases Int.emod_two_eq_zero_or_one (x / 2 ^ (n - 1 - i)) with h | h <;> rw [h] <;> simp

/-- **C41.** Converting a binary vector to an integer and back is the identity. -/
theorem C41_bits_roundtrip (v : List Int) (h : IsBinary v) : uint2bin (bin2uint v) v.length = v := by
  rw [uint2bin_eq, bin2uint_eq]
  have := symBits_leVal v.reverse (binary_reverse h)
  rw [List.length_reverse] at this
  rw [this, List.reverse_reverse]

theorem symBits_mod (n : ℕ) (x : Int) : symBits n (x % 2 ^ n) = symBits n x := by
  induction n generalizing x with
  | zero => rfl
  | succ n ih =>
    rw [symBits_succ, symBits_succ, ← ih (x / 2)]
    congr 1
    · rw [pow_succ', Int.emod_emod_of_dvd _ (Dvd.intro _ rfl)]
    · congr 1
      have h2 : (2:Int) ^ (n + 1) = 2 * 2 ^ n := by rw [pow_succ']
      have e : x = 2 * (x / 2) + x % 2 := by omega
      have hp : (0:Int) < 2 ^ n := by positivity
      have hm := Int.emod_add_mul_ediv (x / 2) (2 ^ n)
      have hm0 := Int.emod_nonneg (x / 2) (ne_of_gt hp)
      have hm1 := Int.emod_lt_of_pos (x / 2) hp
      have : x % 2 ^ (n + 1) = 2 * ((x / 2) % 2 ^ n) + x % 2 := by
        rw [h2]
        have : x = (2 * ((x / 2) % 2 ^ n) + x % 2) + (2 * 2 ^ n) * ((x / 2) / 2 ^ n) := by
          conv_lhs => rw [e, ← hm]
          ring_nf
        conv_lhs => rw [this]
        rw [Int.add_mul_emod_self_left]
        apply Int.emod_eq_of_lt <;> omega
      omega

/-- **C41.** Converting any integer to `n` bits and back gives the value modulo `2^n`; the vector is
binary and of length `n`. -/
theorem C41_int_roundtrip (x : Int) (n : ℕ) :
    bin2uint (uint2bin x n) = x % 2 ^ n ∧ Word n (uint2bin x n) := by
  have hp : (0:Int) < 2 ^ n := by positivity
  constructor
  · rw [bin2uint_eq, uint2bin_eq, List.reverse_reverse, ← symBits_mod]
    exact leVal_symBits n _ (Int.emod_nonneg _ (ne_of_gt hp)) (Int.emod_lt_of_pos _ hp)
  · rw [uint2bin_eq]
    exact ⟨by simp [symBits_length], binary_reverse (symBits_binary n x)⟩

/-- `bin2uint` reads the vector MSB first -/
theorem C41_msb_first (b : Int) (v : List Int) : bin2uint (b :: v) = b * 2 ^ v.length + bin2uint v := by
  rw [bin2uint_eq, bin2uint_eq, List.reverse_cons, leVal_append, List.length_reverse]
  ring

example : bin2uint [1, 1, 0, 1] = 13 ∧ uint2bin 13 6 = [0, 0, 1, 1, 0, 1] := by decide

end Verif
