import Verif.Lemmas.ConvEnc

/-! Lemmas: the trellis is the GF(2) feedback register. -/

namespace Verif
open Spec

/-- history of a feedback register: the new cell is put in front -/
def regHist (f : List Int) (x : ℤ → Int) (init : List Int) : ℕ → List Int
  | 0 => init
  | n + 1 => ((x n + ∑ d ∈ Finset.range (f.length - 1), f.getD (d + 1) 0 * (regHist f x init n).getD d 0) % 2)
      :: regHist f x init n

/-- for every input and every initial content there is a register history -/
theorem exists_register (f : List Int) (x : ℤ → Int) (init : List Int) :
    ∃ w : ℤ → Int, IsRegister f x w ∧ ∀ k : ℕ, w (-1 - k) = init.getD k 0 := by
  set w : ℤ → Int := fun t => if 0 ≤ t then (regHist f x init (t.toNat + 1)).getD 0 0 else init.getD (-1 - t).toNat 0 with hw
  have hneg : ∀ k : ℕ, w (-1 - k) = init.getD k 0 := by
    intro k
    rw [hw]
    simp only []
    rw [if_neg (by omega)]
    congr 1
    omega
  have hh : ∀ (n k : ℕ), (regHist f x init n).getD k 0 = w (n - 1 - k) := by
    intro n
    induction n with
    | zero => intro k; rw [show ((0:ℕ):ℤ) - 1 - k = -1 - k by simp, hneg]; rfl
    | succ n ih =>
      intro k
      cases k with
      | zero =>
        rw [hw]
        simp only []
        rw [if_pos (by omega)]
        congr 2
        omega
      | succ k =>
        rw [regHist, List.getD_cons_succ, ih k]
        congr 1
        omega
  refine ⟨w, fun t ht => ?_, hneg⟩
  obtain ⟨n, rfl⟩ := Int.eq_ofNat_of_zero_le ht
  have e := hh (n + 1) 0
  rw [regHist, List.getD_cons_zero] at e
  rw [show ((n : ℕ) : ℤ) = ((n + 1 : ℕ) : ℤ) - 1 - (0 : ℕ) by omega, ← e]
  push_cast
  rw [show ((n : ℤ) + 1 - 1 - 0) = n by ring]
  congr 2
  refine Finset.sum_congr rfl (fun d _ => ?_)
  rw [hh n d]
  congr 2
  ring

theorem splitMem_flatten (mems : List (List Int)) : splitMem (mems.map List.length) mems.flatten = mems := by
  induction mems with
  | nil => rfl
  | cons m ms ih => simp [splitMem, ih]

theorem foldl_mod2 (F : ℕ → Int) (n : ℕ) :
    (List.range n).foldl (fun c k => (c + F k) % 2) 0 = (∑ k ∈ Finset.range n, F k) % 2 := by
  induction n with
  | zero => rfl
  | succ n ih =>
    rw [List.range_succ, List.foldl_append, ih, Finset.sum_range_succ]
    simp

/-- number of memory cells of input `i` -/
def memOf (G : ConvG) (i : ℕ) : ℕ := cols (G.getD i []) - 1

theorem memSizes_eq (G : ConvG) : memSizes G = (List.range G.length).map (memOf G) := by
  apply ext_getD 0 (by simp [memSizes])
  intro i hi
  have hi' : i < G.length := by simpa [memSizes] using hi
  unfold memSizes
  rw [getD_map_lt _ [] 0 _ hi', getD_map_lt _ 0 0 _ (by simpa using hi'), getD_of_lt 0 (List.range _) (by simpa using hi')]
  simp [memOf]

/-- content of the cells of input `i` before time `t` -/
def cells (w : ℤ → Int) (t : ℤ) (m : ℕ) : List Int := (List.range m).map (fun (k : ℕ) => w (t - 1 - k))

/-- the trellis state before time `t` of registers `w` -/
def stateAt (G : ConvG) (w : ℕ → ℤ → Int) (t : ℤ) : List Int :=
  ((List.range G.length).map (fun i => cells (w i) t (memOf G i))).flatten

theorem splitMem_stateAt (G : ConvG) (w : ℕ → ℤ → Int) (t : ℤ) (i : ℕ) (hi : i < G.length) :
    (splitMem (memSizes G) (stateAt G w t)).getD i [] = cells (w i) t (memOf G i) := by
  have : memSizes G = ((List.range G.length).map (fun i => cells (w i) t (memOf G i))).map List.length := by
    rw [memSizes_eq, List.map_map]
    apply List.map_congr_left
    intro k _
    simp [cells]
  unfold stateAt
  rw [this, splitMem_flatten, getD_map_lt _ 0 [] _ (by simpa using hi), getD_of_lt 0 (List.range _) (by simpa using hi)]
  simp

/-- what the trellis needs: matching lengths of the feedback polynomials, and, as soon as a feedback
dictionary is given, no memory behind inputs without polynomial -/
structure TrellisFits (nO : ℕ) (G : ConvG) (fb : ConvFb) : Prop where
  good : GoodG nO G
  pos : 0 < nO
  len : ∀ i f, i < G.length → fbAt fb i = some f → f.length - 1 = memOf G i
  rest : fb ≠ none → ∀ i j, i < G.length → j < nO → fbAt fb i = none → ∀ d, 1 ≤ d → (gAt G i j).getD d 0 = 0

theorem memoryK_eq {nO : ℕ} {G : ConvG} {fb : ConvFb} (h : TrellisFits nO G fb) (x w : ℤ → Int) (i : ℕ)
    (hi : i < G.length) (t : ℤ) (ht : 0 ≤ t) (hx : x t = 0 ∨ x t = 1)
    (hreg : IsRegister ((fbAt fb i).getD [1]) x w) :
    memoryK fb i (x t) (cells w t (memOf G i)) = (List.range (memOf G i + 1)).map (fun (k : ℕ) => w (t - k)) := by
  have hw : (match fbAt fb i with
      | some f => (x t + (List.zipWith (· * ·) (cells w t (memOf G i)) (f.drop 1)).sum) % 2
      | none => x t) = w t := by
    rw [hreg t ht]
    cases hf : fbAt fb i with
    | none =>
      simp
      rcases hx with h | h <;> rw [h] <;> rfl
    | some f =>
      simp only [Option.getD_some]
      have hl := h.len i f hi hf
      rw [sum_zipWith_eq (· * ·) 0 0 _ _ (by simp [cells, hl])]
      congr 2
      rw [show (cells w t (memOf G i)).length = f.length - 1 by simp [cells, hl]]
      refine Finset.sum_congr rfl (fun d hd => ?_)
      rw [Finset.mem_range] at hd
      rw [drop_getD, Nat.add_comm 1 d, mul_comm]
      congr 1
      unfold cells
      rw [getD_map_lt _ 0 0 _ (by simp; omega), getD_of_lt 0 (List.range _) (by simp; omega), List.getElem_range]
      congr 1
      ring
  unfold memoryK
  refine Eq.trans (congrArg (fun a => a :: cells w t (memOf G i)) hw) ?_
  show w t :: cells w t (memOf G i) = _
  rw [List.range_succ_eq_map, List.map_cons, List.map_map]
  congr 1
  · simp
  · unfold cells
    apply List.map_congr_left
    intro k _
    simp only [Function.comp_apply]
    congr 1
    push_cast
    ring

theorem sum_zip_range (g : List Int) (w : ℤ → Int) (t : ℤ) (m : ℕ) (hm : g.length = m) :
    (List.zipWith (· * ·) g ((List.range m).map (fun (k : ℕ) => w (t - k)))).sum = tapSum g w t := by
  rw [sum_zipWith_eq (· * ·) 0 0 _ _ (by simpa using hm)]
  unfold tapSum
  refine Finset.sum_congr rfl (fun d hd => ?_)
  rw [Finset.mem_range] at hd
  rw [getD_map_lt _ 0 0 _ (by simp; omega), getD_of_lt 0 (List.range _) (by simp; omega), List.getElem_range]

theorem trellisTerm_eq {nO : ℕ} {G : ConvG} {fb : ConvFb} (h : TrellisFits nO G fb) (uf : ConvUf) (x w : ℤ → Int) (i j : ℕ)
    (hi : i < G.length) (hj : j < nO) (t : ℤ) (ht : 0 ≤ t) (hx : x t = 0 ∨ x t = 1)
    (hreg : IsRegister ((fbAt fb i).getD [1]) x w) :
    trellisTerm G fb uf i j (x t) (cells w t (memOf G i)) % 2
      = (if fbAt fb i ≠ none ∧ ufAt uf i j = 0 then (gAt G i j).getD 0 0 * x t else tapSum (gAt G i j) w t) % 2 := by
  obtain ⟨hgl, hgp⟩ := goodG_len h.good hi hj
  have hgl' : (gAt G i j).length = memOf G i + 1 := by unfold memOf; omega
  unfold trellisTerm
  rw [memoryK_eq h x w i hi t ht hx hreg]
  simp only []
  rw [sum_zip_range _ w t _ hgl']
  by_cases hn : fb = none
  · rw [if_pos hn, if_neg (by simp [hn, fbAt])]
    simp
  rw [if_neg hn]
  have htap0 : (∀ d, 1 ≤ d → (gAt G i j).getD d 0 = 0) → tapSum (gAt G i j) w t = (gAt G i j).getD 0 0 * w t := by
    intro hz
    unfold tapSum
    rw [hgl', Finset.sum_range_succ', Finset.sum_eq_zero (fun d _ => by rw [hz (d + 1) (by omega), zero_mul])]
    simp
  by_cases hc : (gAt G i j).length = 1 ∨ ufAt uf i j = 0
  · rw [if_pos hc]
    by_cases hd : fbAt fb i ≠ none ∧ ufAt uf i j = 0
    · rw [if_pos hd, mul_comm]
    · rw [if_neg hd]
      have hwx : w t = x t ∧ ∀ d, 1 ≤ d → (gAt G i j).getD d 0 = 0 := by
        have hr := hreg t ht
        cases hf : fbAt fb i with
        | none =>
          rw [hf] at hr
          simp at hr
          refine ⟨by rw [hr]; rcases hx with h | h <;> rw [h] <;> rfl, h.rest hn i j hi hj hf⟩
        | some f =>
          have hl := h.len i f hi hf
          have h1 : (gAt G i j).length = 1 := by
            rcases hc with hc | hc
            · exact hc
            · exact absurd ⟨by simp [hf], hc⟩ hd
          rw [hf] at hr
          simp only [Option.getD_some] at hr
          rw [show f.length - 1 = 0 by omega] at hr
          simp at hr
          refine ⟨by rw [hr]; rcases hx with h | h <;> rw [h] <;> rfl, fun d hd => getD_of_le 0 _ (by omega)⟩
      rw [htap0 hwx.2, hwx.1, mul_comm]
  · rw [if_neg hc, if_neg (by push Not at hc; intro h'; exact hc.2 h'.2)]
    simp

/-- one trellis step is one register step -/
theorem trellisStep_eq {nO : ℕ} {G : ConvG} {fb : ConvFb} (h : TrellisFits nO G fb) (uf : ConvUf) (x w : ℕ → ℤ → Int)
    (t : ℤ) (ht : 0 ≤ t) (u : List Int) (hu : ∀ i < G.length, x i t = u.getD i 0)
    (hx : ∀ i < G.length, x i t = 0 ∨ x i t = 1)
    (hreg : ∀ i < G.length, IsRegister ((fbAt fb i).getD [1]) (x i) (w i)) :
    trellisStep G fb uf (stateAt G w t) u
      = ((List.range nO).map (fun j => encBit G.length (gAt G) (fun i j => fbAt fb i ≠ none ∧ ufAt uf i j = 0) x w j t),
        stateAt G w (t + 1)) := by
  unfold trellisStep
  simp only []
  rw [goodG_nOut h.good]
  refine Prod.ext ?_ ?_
  · simp only []
    apply List.map_congr_left
    intro j hj
    rw [List.mem_range] at hj
    rw [foldl_mod2]
    unfold encBit
    apply sum_emod_congr
    intro i hi
    rw [splitMem_stateAt G w t i hi, ← hu i hi]
    exact trellisTerm_eq h uf (x i) (w i) i j hi hj t ht (hx i hi) (hreg i hi)
  · simp only []
    unfold stateAt
    congr 1
    apply List.map_congr_left
    intro i hi
    rw [List.mem_range] at hi
    rw [show ((List.range G.length).map (fun i => cells (w i) t (memOf G i))).flatten = stateAt G w t from rfl,
      splitMem_stateAt G w t i hi, ← hu i hi, memoryK_eq h (x i) (w i) i hi t ht (hx i hi) (hreg i hi),
      List.range_succ, List.map_append]
    simp only [List.map_cons, List.map_nil, List.dropLast_concat]
    unfold cells
    apply List.map_congr_left
    intro k _
    congr 1
    ring

/-- walking the trellis is running the registers -/
theorem trellisWalk_eq {nO : ℕ} {G : ConvG} {fb : ConvFb} (h : TrellisFits nO G fb) (uf : ConvUf) (x w : ℕ → ℤ → Int)
    (us : List (List Int)) (t : ℤ) (ht : 0 ≤ t)
    (hu : ∀ k < us.length, ∀ i < G.length, x i (t + k) = (us.getD k []).getD i 0)
    (hx : ∀ k < us.length, ∀ i < G.length, x i (t + k) = 0 ∨ x i (t + k) = 1)
    (hreg : ∀ i < G.length, IsRegister ((fbAt fb i).getD [1]) (x i) (w i)) :
    trellisWalk G fb uf (stateAt G w t) us
      = (((List.range us.length).map (fun (k : ℕ) => (List.range nO).map (fun j =>
          encBit G.length (gAt G) (fun i j => fbAt fb i ≠ none ∧ ufAt uf i j = 0) x w j (t + k)))).flatten,
        stateAt G w (t + us.length)) := by
  induction us generalizing t with
  | nil => simp [trellisWalk]
  | cons u us ih =>
    have h0 := trellisStep_eq h uf x w t ht u
      (fun i hi => by simpa using hu 0 (by simp) i hi) (fun i hi => by simpa using hx 0 (by simp) i hi) hreg
    have h1 := ih (t + 1) (by omega)
      (fun k hk i hi => by
        have := hu (k + 1) (by simpa using hk) i hi
        rw [List.getD_cons_succ] at this
        rw [← this]; congr 1; push_cast; ring)
      (fun k hk i hi => by
        have := hx (k + 1) (by simpa using hk) i hi
        rwa [show t + 1 + (k : ℤ) = t + ((k + 1 : ℕ) : ℤ) by push_cast; ring])
    simp only [trellisWalk]
    rw [h0]
    simp only []
    rw [h1, List.length_cons, List.range_succ_eq_map, List.map_cons, List.flatten_cons, List.map_map]
    refine Prod.ext ?_ ?_
    · simp only [Nat.cast_zero, add_zero]
      congr 2
      apply List.map_congr_left
      intro k _
      simp only [Function.comp_apply]
      rw [show t + 1 + (k : ℤ) = t + ((k + 1 : ℕ) : ℤ) by push_cast; ring]
    · simp only []
      congr 1
      push_cast
      ring

theorem stateAt_zero (G : ConvG) (w : ℕ → ℤ → Int) (hw : ∀ i < G.length, ∀ t < 0, w i t = 0) :
    stateAt G w 0 = List.replicate (memSizes G).sum 0 := by
  unfold stateAt
  rw [memSizes_eq]
  have : (List.range G.length).map (fun i => cells (w i) 0 (memOf G i))
      = (List.range G.length).map (fun i => List.replicate (memOf G i) (0:Int)) := by
    apply List.map_congr_left
    intro i hi
    rw [List.mem_range] at hi
    unfold cells
    rw [List.eq_replicate_iff]
    refine ⟨by simp, ?_⟩
    intro b hb
    rw [List.mem_map] at hb
    obtain ⟨k, _, rfl⟩ := hb
    exact hw i hi _ (by omega)
  rw [this]
  induction (List.range G.length) with
  | nil => rfl
  | cons a l ih =>
    rw [List.map_cons, List.flatten_cons, ih, List.map_cons, List.sum_cons, List.replicate_append_replicate]

end Verif
