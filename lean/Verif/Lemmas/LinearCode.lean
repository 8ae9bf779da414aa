import Verif.Lemmas.Linear

/-! Lemmas: encoder and decoder of the linear block code in closed form. -/

namespace Verif
open Spec

/-- number of blocks of size `k` needed for `l` bits -/
def nBlocks (l k : ℕ) : ℕ := (l + k - 1) / k

/-- pattern padded with zeros to whole blocks -/
def padTo (k : ℕ) (p : List Int) : List Int := p ++ List.replicate (nBlocks p.length k * k - p.length) 0

theorem nBlocks_mul_ge (l k : ℕ) (hk : 0 < k) : l ≤ nBlocks l k * k ∧ nBlocks l k * k < l + k := by
  unfold nBlocks
  have h1 := Nat.div_add_mod (l + k - 1) k
  have h2 := Nat.mod_lt (l + k - 1) hk
  rw [Nat.mul_comm] at h1
  omega

theorem nBlocks_of_mod (l k : ℕ) (hk : 0 < k) :
    nBlocks l k * k - l = if l % k > 0 then k - l % k else 0 := by
  have h1 := nBlocks_mul_ge l k hk
  have h2 := Nat.div_add_mod l k
  have h3 := Nat.mod_lt l hk
  rw [Nat.mul_comm] at h2
  by_cases h : l % k > 0
  · rw [if_pos h]
    have : nBlocks l k = l / k + 1 := by
      have hlo : l / k * k < nBlocks l k * k := by omega
      have hhi : nBlocks l k * k < (l / k + 2) * k := by
        rw [show (l / k + 2) * k = l / k * k + k + k by ring]; omega
      have a := lt_of_mul_lt_mul_right hlo (Nat.zero_le k)
      have b := lt_of_mul_lt_mul_right hhi (Nat.zero_le k)
      omega
    rw [this, show (l / k + 1) * k = l / k * k + k by ring]
    omega
  · rw [if_neg h]
    have hlo : l / k * k ≤ nBlocks l k * k := by omega
    have hhi : nBlocks l k * k < (l / k + 1) * k := by
      rw [show (l / k + 1) * k = l / k * k + k by ring]; omega
    have a := le_of_mul_le_mul_right hlo hk
    have b := lt_of_mul_lt_mul_right hhi (Nat.zero_le k)
    have : nBlocks l k = l / k := by omega
    rw [this]; omega

theorem padTo_length (k : ℕ) (hk : 0 < k) (p : List Int) : (padTo k p).length = nBlocks p.length k * k := by
  have := nBlocks_mul_ge p.length k hk
  simp [padTo]; omega

theorem padTo_getD (k : ℕ) (p : List Int) (i : ℕ) : (padTo k p).getD i 0 = p.getD i 0 := by
  unfold padTo
  rcases Nat.lt_or_ge i p.length with h | h
  · simp [List.getD_eq_getElem?_getD, List.getElem?_append_left h]
  · rw [getD_of_le 0 p h]
    simp only [List.getD_eq_getElem?_getD]
    rw [List.getElem?_append_right h, List.getElem?_replicate]
    split <;> rfl

theorem padTo_binary (k : ℕ) {p : List Int} (h : IsBinary p) : IsBinary (padTo k p) := by
  intro x hx
  unfold padTo at hx
  rw [List.mem_append] at hx
  rcases hx with hx | hx
  · exact h x hx
  · left; exact List.eq_of_mem_replicate hx

theorem binary_flatten {n : ℕ} {G : List (List Int)} (h : BinaryMatrix n G) : IsBinary G.flatten := by
  intro x hx
  rw [List.mem_flatten] at hx
  obtain ⟨r, hr, hx⟩ := hx
  exact (h r hr).2 x hx

theorem codingLinear_eq {n : ℕ} {G : List (List Int)} (hG : BinaryMatrix n G) (hk : 0 < G.length)
    {p : List Int} (hp : IsBinary p) :
    codingLinear p G = .ok ((rows G.length (padTo G.length p)).map (vecMat G)).flatten := by
  unfold codingLinear
  rw [checkBinary_ok hp, checkBinary_ok (binary_flatten hG)]
  simp only [bind, Except.bind]
  rw [if_neg (by omega), ← nBlocks_of_mod _ _ hk]
  rfl

theorem decodingLinear_eq {n : ℕ} {G : List (List Int)} (hG : BinaryMatrix n G) (hk : 0 < G.length)
    (hn : 0 < n) {p : List Int} (hp : IsBinary p) :
    decodingLinear p G = .ok (mlDecoding (getBinPerm G.length) ((getBinPerm G.length).map (vecMat G)) (rows n p)) := by
  unfold decodingLinear
  rw [checkBinary_ok hp, checkBinary_ok (binary_flatten hG)]
  simp only [bind, Except.bind]
  rw [cols_eq hG hk, if_neg (by omega)]
  rfl

theorem rows_padTo_length (k : ℕ) (hk : 0 < k) (p : List Int) :
    (rows k (padTo k p)).length = nBlocks p.length k := by
  rw [rows_length, padTo_length k hk, Nat.mul_div_cancel _ hk]

theorem rows_word (k : ℕ) {p : List Int} (hp : IsBinary p) : ∀ r ∈ rows k p, Word k r :=
  fun r hr => ⟨mem_rows_length k p r hr, fun x hx => hp x (mem_rows_mem k p r hr x hx)⟩

end Verif
