import Verif.Lemmas.ConvMl

/-! Lemmas: blocks of an encoded stream are trellis walks. -/

namespace Verif
open Spec

/-- block `r` of the coded stream is the walk of block `r` of the data from some state -/
theorem stream_block {nO n : ℕ} {G : ConvG} {fb : Fb} (h : GoodCode nO G fb) (hd : DirectLong nO G fb)
    (hpos : 0 < nO) (hf : Fits nO G fb) (hn : 0 < n) (p : List Int) (hp : IsBinary p) :
    ∃ c, codingConv id p G (fb.map Prod.fst) (fb.map Prod.snd) = .ok c ∧
      c.length = nBlocks p.length G.length * nO ∧ IsBinary c ∧
      ∀ r, r < nBlocks p.length G.length / n →
        ∃ s, Word (memSizes G).sum s ∧
          Word (G.length * n) ((rows (G.length * n) (padTo G.length p)).getD r []) ∧
          (rows (n * nO) c).getD r [] = (trellisWalk G (fb.map Prod.fst) (fb.map Prod.snd) s
            (rows G.length ((rows (G.length * n) (padTo G.length p)).getD r []))).1 := by
  have hG : 0 < G.length := List.length_pos_of_ne_nil h.1.1
  obtain ⟨w, hw⟩ := exists_registers_zero fb p G.length
  obtain ⟨c, h1, h2, h3, h4⟩ := coding_code h hd p hp w (fun i _ => hw i)
  refine ⟨c, h1, h2, h3, fun r hr => ?_⟩
  have hpl := padTo_length G.length hG p
  set N := nBlocks p.length G.length with hN
  have hrn : r * n + n ≤ N := by
    have : (r + 1) * n ≤ N := (Nat.le_div_iff_mul_le hn).1 hr
    rwa [Nat.succ_mul] at this
  have hrb : r < (padTo G.length p).length / (G.length * n) := by
    rw [hpl, Nat.mul_comm N, Nat.mul_div_mul_left _ _ hG]
    exact hr
  have hrc : r < c.length / (n * nO) := by
    rw [h2, Nat.mul_div_mul_right _ _ hpos]
    exact hr
  set v := (rows (G.length * n) (padTo G.length p)).getD r [] with hv
  have hvw : Word (G.length * n) v := rows_word _ (padTo_binary _ hp) v
    (mem_of_getD [] _ (by rw [rows_length]; exact hrb))
  have hus : (rows G.length v).length = n := by
    rw [rows_length, hvw.1, Nat.mul_div_cancel_left _ hG]
  refine ⟨stateAt G w (r * n : ℕ), stateAt_word G w _ (fun i _ s _ => register_binary (hw i).1
    (fun t ht => Or.inl ((hw i).2 t ht)) s), hvw, ?_⟩
  have hin : ∀ k < n, ∀ i < G.length,
      inBit p G.length i (((r * n : ℕ) : ℤ) + k) = ((rows G.length v).getD k []).getD i 0 := by
    intro k hk i hi
    rw [rows_getD 0 _ _ k i (by rw [← rows_length, hus]; exact hk) hi, hv,
      rows_getD 0 _ _ r (k * G.length + i) hrb (by
        calc k * G.length + i < k * G.length + G.length := by omega
          _ = (k + 1) * G.length := by ring
          _ ≤ n * G.length := Nat.mul_le_mul_right _ hk
          _ = G.length * n := Nat.mul_comm _ _), padTo_getD]
    unfold inBit
    rw [if_pos (by positivity), show (((r * n : ℕ) : ℤ) + (k : ℤ)).toNat = r * n + k by omega]
    congr 1
    ring
  rw [trellisWalk_eq (goodCode_fits h hpos hf) (fb.map Prod.snd) (inBit p G.length) w _ _ (by positivity)
    (by rw [hus]; exact hin) (fun k _ i _ => inBit_binary hp _ _ _) (fun i _ => by rw [fbAt_spec]; exact (hw i).1)]
  simp only []
  rw [hus]
  have huni : ∀ row ∈ (List.range n).map (fun (k : ℕ) => (List.range nO).map (fun j =>
      encBit G.length (gAt G) (fun i j => fbAt (fb.map Prod.fst) i ≠ none ∧ ufAt (fb.map Prod.snd) i j = 0)
        (inBit p G.length) w j (((r * n : ℕ) : ℤ) + k))), row.length = nO := by
    intro row hr
    rw [List.mem_map] at hr
    obtain ⟨k, _, rfl⟩ := hr
    simp
  have hcl : ((rows (n * nO) c).getD r []).length = n * nO :=
    mem_rows_length _ c _ (mem_of_getD [] _ (by rw [rows_length]; exact hrc))
  apply ext_getD 0
  · rw [hcl, flatten_uniform_length nO _ huni]; simp
  · intro q hq
    rw [hcl] at hq
    have hj : q % nO < nO := Nat.mod_lt _ hpos
    have ht : q / nO < n := Nat.div_lt_of_lt_mul (by rwa [Nat.mul_comm])
    have hij : q / nO * nO + q % nO = q := by rw [Nat.mul_comm]; exact Nat.div_add_mod q nO
    rw [rows_getD 0 _ _ r q hrc hq, show r * (n * nO) + q = (r * n + q / nO) * nO + q % nO by
      rw [Nat.add_mul, Nat.add_assoc, hij, Nat.mul_assoc], h4 _ _ (by omega) hj]
    conv_rhs => rw [← hij]
    rw [flatten_getD 0 nO _ huni _ _ (by simpa using ht) hj,
      getD_map_lt _ 0 [] _ (by simpa using ht), getD_of_lt 0 (List.range _) (by simpa using ht), List.getElem_range,
      getD_map_lt _ 0 0 _ (by simpa using hj), getD_of_lt 0 (List.range _) (by simpa using hj), List.getElem_range]
    push_cast
    exact (encBit_congr _ _ _ _ _ _ _ _ (fun i _ => direct_spec fb i _)).symm

theorem decodingConvMl_eq {nO : ℕ} {G : ConvG} {fb : Fb} (h : GoodCode nO G fb) (hpos : 0 < nO) (hf : Fits nO G fb)
    {p : List Int} (hp : IsBinary p) (tb : ℕ) (htb : 0 < tb) :
    decodingConvMl p G tb (fb.map Prod.fst) (fb.map Prod.snd)
      = .ok (mlDecoding (tile (getBinPerm (G.length * (tb / nOut G))) (trellisStates G).length)
        (convCodebook G (fb.map Prod.fst) (fb.map Prod.snd) tb) (rows tb p)) := by
  have hG : 0 < G.length := List.length_pos_of_ne_nil h.1.1
  unfold decodingConvMl
  rw [goodCode_check h hp]
  simp only [bind, Except.bind]
  rw [if_neg (by omega), goodG_nOut h.1, if_neg (by omega), trellisCheck_ok (goodCode_fits h hpos hf)]
  simp only []
  rw [if_neg (by omega)]
  rfl

end Verif
