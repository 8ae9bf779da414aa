import Verif.Lemmas.FilterClass
import Mathlib.Algebra.Field.Rat
import Mathlib.Tactic.NormNum

/-! Property theorems C44 (noise-free channel) and C45 (filter classes). -/

open Finset

namespace Verif

open Spec (withPast DiffEq)

variable {F : Type*} [Field F]

/-! ### C44 -/

/-- **C44.** From rest, the output of `awgn_channel` has the length of the input and satisfies the
difference equation of `(b, a)` at every time. The denominator may be a number or a vector. -/
theorem C44_difference_equation [DecidableEq F] (b : List F) (a : Denom F) (x : List F) (hb : 0 < b.length)
    (ha : 0 < a.coeffs.length) (h0 : a.coeffs.getD 0 0 ≠ 0) (hx : 0 < x.length) :
    ∃ y z, awgnChannel x b a none = .ok (y, z) ∧ y.length = x.length ∧
      ∀ n : ℕ, n < x.length → DiffEq b a.coeffs (withPast [] x) (withPast [] y) n := by
  refine ⟨_, _, awgnChannel_eq x b a none hb ha h0 (by simp) (Or.inr hx), lfRun_length _ _ _ _ _, ?_⟩
  intro n hn
  unfold DiffEq
  rw [withPast_nat]
  have := lfRun_diff b a.coeffs (restMemory b a.coeffs) x h0
    (by simp only [restMemory, List.length_replicate]; omega)
    (by simp only [restMemory, List.length_replicate]; omega) n hn
  rw [restMemory, replicate_getD, mul_zero, add_zero] at this
  exact this

/-- **C44.** The difference equation has no other solution: any sequence that satisfies it from rest is
the output of the channel. -/
theorem C44_only_solution [DecidableEq F] (b : List F) (a : Denom F) (x : List F) (hb : 0 < b.length)
    (ha : 0 < a.coeffs.length) (h0 : a.coeffs.getD 0 0 ≠ 0) (hx : 0 < x.length) (y : List F)
    (hy : y.length = x.length)
    (h : ∀ n : ℕ, n < x.length → DiffEq b a.coeffs (withPast [] x) (withPast [] y) n) :
    ∃ z, awgnChannel x b a none = .ok (y, z) := by
  obtain ⟨y', z, e, hl, hd⟩ := C44_difference_equation b a x hb ha h0 hx
  have : y = y' := diffEq_unique b a.coeffs h0 [] [] x y y' (by omega) (fun n hn => h n (by omega))
    (fun n hn => hd n (by omega))
  exact ⟨z, by rw [e, this]⟩

example : awgnChannel (F := ℚ) [1, 2, 0, 0] [2, 1] (.vec [2, -1]) none = .ok ([1, 3, 5/2, 5/4], [5/8]) := by
  decide +kernel
example : awgnChannel (F := ℚ) [1, 2, 0, 0] [2, 1] (.num 2) none = .ok ([1, 5/2, 1, 0], [0]) := by decide +kernel

/-- **C44.** The channel is linear in input and memory together: for `p x + q x'` started in
`p z + q z'` the outputs and final memories combine with the same factors. (From rest: take `z = z' = 0`.) -/
theorem C44_linear [DecidableEq F] (b : List F) (a : Denom F) (hb : 0 < b.length)
    (ha : 0 < a.coeffs.length) (h0 : a.coeffs.getD 0 0 ≠ 0) (x x' z z' : List F) (p q : F) (hx : 0 < x.length)
    (hl : x.length = x'.length) (hz : z.length = max b.length a.coeffs.length - 1)
    (hz' : z'.length = max b.length a.coeffs.length - 1) :
    ∃ y y' w w' yc wc, awgnChannel x b a (some z) = .ok (y, w) ∧ awgnChannel x' b a (some z') = .ok (y', w') ∧
      awgnChannel (List.zipWith (fun s t => p * s + q * t) x x') b a
        (some (List.zipWith (fun s t => p * s + q * t) z z')) = .ok (yc, wc) ∧
      (∀ n : ℕ, yc.getD n 0 = p * y.getD n 0 + q * y'.getD n 0) ∧
      ∀ n : ℕ, wc.getD n 0 = p * w.getD n 0 + q * w'.getD n 0 := by
  have e := awgnChannel_eq x b a (some z) hb ha h0 (by intro u hu; cases hu; exact hz) (Or.inr hx)
  have e' := awgnChannel_eq x' b a (some z') hb ha h0 (by intro u hu; cases hu; exact hz') (Or.inr (by omega))
  have ec := awgnChannel_eq (linComb p q x x') b a (some (linComb p q z z')) hb ha h0
    (by intro u hu; cases hu; rw [linComb_length _ _ _ _ (by omega)]; exact hz)
    (Or.inr (by rw [linComb_length _ _ _ _ hl]; exact hx))
  refine ⟨_, _, _, _, _, _, e, e', ec, ?_, ?_⟩ <;> intro n <;> simp only [Option.getD_some] <;>
    rw [lfRun_linear _ _ _ _ _ _ (by omega) _ _ hl]
  · exact linComb_getD _ _ _ _ (by simp [lfRun_length, hl]) _
  · exact linComb_getD _ _ _ _ (by simp [lfRun_state_length, hz, hz']) _

example : awgnChannel (F := ℚ) [1, 0, 3] [1, 2] (.vec [1, 1/2]) (some [1]) = .ok ([2, 1, 5/2], [19/4]) ∧
    awgnChannel (F := ℚ) [2, 1, 0] [1, 2] (.vec [1, 1/2]) (some [0]) = .ok ([2, 4, 0], [0]) ∧
    awgnChannel (F := ℚ) [8, 3, 6] [1, 2] (.vec [1, 1/2]) (some [2]) = .ok ([10, 14, 5], [19/2]) := by
  decide +kernel

/-- **C44.** Filtering a signal in chunks (non-empty ones if the denominator is a single number), each call
receiving the memory returned by the previous one, gives the outputs of the corresponding pieces and the
final memory of one call on the whole signal, from rest or from any given memory. -/
theorem C44_chunks [DecidableEq F] (b : List F) (a : Denom F) (hb : 0 < b.length)
    (ha : 0 < a.coeffs.length) (h0 : a.coeffs.getD 0 0 ≠ 0) (zi : Option (List F))
    (hz : ∀ z, zi = some z → z.length = max b.length a.coeffs.length - 1) (cs : List (List F)) (hcs : cs ≠ [])
    (hx : a.coeffs.length ≠ 1 ∨ ∀ c ∈ cs, 0 < c.length) :
    ∃ ys y z, awgnChannelChunks b a zi cs = .ok (ys, some z) ∧ awgnChannel cs.flatten b a zi = .ok (y, z) ∧
      ys.map List.length = cs.map List.length ∧ ys.flatten = y := by
  obtain ⟨ys, zo, e1, e2, e3, e4, e5⟩ := awgnChannelChunks_eq b a hb ha h0 cs zi hz hx
  have e := awgnChannel_eq cs.flatten b a zi hb ha h0 hz (hx.imp id fun h => by
    cases cs with
    | nil => exact absurd rfl hcs
    | cons c cs => have := h c (by simp); simp; omega)
  cases zo with
  | none => exact absurd rfl (e5 hcs)
  | some z =>
    refine ⟨ys, _, z, e1, e.trans ?_, e2, e3⟩
    rw [Option.getD_some] at e4
    rw [e4]

example : awgnChannelChunks (F := ℚ) [2, 1] (.vec [2, -1]) none [[1], [2, 0], [0]]
    = .ok ([[1], [3, 5/2], [5/4]], some [5/8]) := by decide +kernel

/-- **C44.** A memory of any other length is rejected, as is a denominator with `a[0] = 0`. -/
theorem C44_rejects [DecidableEq F] (x b : List F) (a : Denom F) :
    (∀ z, z.length ≠ max b.length a.coeffs.length - 1 → awgnChannel x b a (some z) = .error .valueError) ∧
    (a.coeffs.getD 0 0 = 0 → ∀ zi, awgnChannel x b a zi = .error .valueError) := by
  constructor
  · intro z hz
    unfold awgnChannel lfilter
    rw [Option.getD_some]
    rw [if_pos hz]
    split <;> rfl
  · intro h0 zi
    unfold awgnChannel lfilter
    simp only []
    rw [if_pos (by tauto)]

example : awgnChannel (F := ℚ) [1, 2] [2, 1] (.vec [2, -1]) (some [0, 0]) = .error .valueError := by
  decide +kernel

/-! ### C45 -/

/-- **C45.** For every sequence of calls of a `Filter` object the outputs have the lengths of the chunks
and, put together, satisfy the difference equation at every time, the given memories being the past
(`z[0]` the most recent sample). -/
theorem C45_filter (b a : List F) (h0 : a.getD 0 0 ≠ 0) (zf zi : Option (List F)) (f : FilterObj F)
    (hf : filterInit b a zf zi = .ok f) (cs : List (List F)) :
    (filterCalls id f cs).1.map List.length = cs.map List.length ∧
    ∀ n : ℕ, n < cs.flatten.length → DiffEq b a (withPast (zf.getD []) cs.flatten)
      (withPast (zi.getD []) (filterCalls id f cs).1.flatten) n := by
  obtain ⟨hok, hb, ha, h1, h2⟩ := filterInit_ok b a zf zi f hf
  refine ⟨filterCalls_lengths _ _ _, fun n hn => ?_⟩
  have := filterCall_diffEq f cs.flatten hok (by rw [ha]; exact h0) n hn
  rw [(filterCalls_flatten id f cs).1]
  rw [hb, ha, h1, h2] at this
  have w1 : ∀ l, withPast (zf.getD (List.replicate b.length 0)) l = withPast (zf.getD []) l := by
    intro l
    cases zf with
    | none => funext t; exact withPast_zeros _ _ _
    | some => rfl
  have w2 : ∀ l, withPast (zi.getD (List.replicate (a.length - 1) 0)) l = withPast (zi.getD []) l := by
    intro l
    cases zi with
    | none => funext t; exact withPast_zeros _ _ _
    | some => rfl
  rwa [w1, w2] at this

/-- **C45.** A `Filter` can be built iff the memories have the lengths of `b` and of `a` minus one
(so `a` is not empty); otherwise ValueError. -/
theorem C45_filter_init (b a : List F) (zf zi : Option (List F)) :
    ((∀ z, zf = some z → z.length = b.length) ∧ (∀ z, zi = some z → z.length + 1 = a.length) ∧ a ≠ [] →
      ∃ f, filterInit b a zf zi = .ok f) ∧
    (¬((∀ z, zf = some z → z.length = b.length) ∧ (∀ z, zi = some z → z.length + 1 = a.length) ∧ a ≠ []) →
      filterInit b a zf zi = .error .valueError) := by
  have g1 : (∀ z, zf = some z → z.length = b.length) → ∃ z, setZFir b zf = .ok z := by
    intro h
    cases zf with
    | none => exact ⟨_, rfl⟩
    | some z => exact ⟨z, by simp [setZFir, h z rfl]⟩
  have g1' : ¬(∀ z, zf = some z → z.length = b.length) → setZFir b zf = .error .valueError := by
    intro h
    cases zf with
    | none => exact absurd (by simp) h
    | some z => simp [setZFir]; intro hz; exact absurd (by simp [hz]) h
  have g2 : (∀ z, zi = some z → z.length + 1 = a.length) ∧ a ≠ [] → ∃ z, setZIir a zi = .ok z := by
    intro h
    cases zi with
    | none => exact ⟨_, by simp only [setZIir]; rw [if_neg (by simpa using h.2)]⟩
    | some z => exact ⟨z, by simp [setZIir, h.1 z rfl]⟩
  have g2' : ¬((∀ z, zi = some z → z.length + 1 = a.length) ∧ a ≠ []) → setZIir a zi = .error .valueError := by
    intro h
    cases zi with
    | none => simp only [setZIir]; rw [if_pos (by by_contra hc; exact h ⟨by simp, by simpa using hc⟩)]
    | some z =>
      simp only [setZIir]
      rw [if_neg]
      intro hz
      exact h ⟨by simp [hz], by rintro rfl; simp at hz⟩
  constructor
  · rintro ⟨h1, h2⟩
    obtain ⟨z, e⟩ := g1 h1
    obtain ⟨w, e'⟩ := g2 h2
    exact ⟨⟨b, a, z, w⟩, by simp only [filterInit, e, e']; rfl⟩
  · intro h
    unfold filterInit
    by_cases h1 : ∀ z, zf = some z → z.length = b.length
    · obtain ⟨z, e⟩ := g1 h1
      rw [e, g2' (fun h2 => h ⟨h1, h2⟩)]; rfl
    · rw [g1' h1]; rfl

example : (filterInit (F := ℚ) [1, 2] [2, -1] none none).map
    (fun f => (filterCalls id f [[1], [2, 0], [0]]).1) = .ok [[1/2], [9/4, 25/8], [25/16]] := by decide +kernel
example : (filterInit (F := ℚ) [1, 2] [2, -1] (some [3, 7]) (some [4])).map
    (fun f => (filterCalls id f [[1], [2]]).1) = .ok [[11/2], [19/4]] := by decide +kernel

/-- **C45.** For every sequence of calls of a `FilterTII` object with at least one memory cell, the
outputs have the lengths of the chunks and, put together, satisfy the difference equation at every time
when started from zero memory. With memory `z`, `z[n]` is added to the right-hand side at time `n`. -/
theorem C45_tii (b a : List F) (hb : 0 < b.length) (ha : 0 < a.length) (hab : 1 < max b.length a.length)
    (h0 : a.getD 0 0 ≠ 0) (z : Option (List F)) (hz : ∀ z', z = some z' → z'.length + 1 = max b.length a.length)
    (cs : List (List F)) :
    ∃ t ys t', tiiInit b a z = .ok t ∧ tiiCalls tiiProcess id t cs = .ok (ys, t') ∧
      ys.map List.length = cs.map List.length ∧
      (∀ n : ℕ, n < cs.flatten.length → a.getD 0 0 * withPast [] ys.flatten n
        = ∑ i ∈ range b.length, b.getD i 0 * withPast [] cs.flatten (n - i)
          - ∑ j ∈ Ico 1 a.length, a.getD j 0 * withPast [] ys.flatten (n - j) + (z.getD []).getD n 0) ∧
      (z = none → ∀ n : ℕ, n < cs.flatten.length →
        DiffEq b a (withPast [] cs.flatten) (withPast [] ys.flatten) n) := by
  obtain ⟨t, ht⟩ : ∃ t, tiiInit b a z = .ok t := by
    unfold tiiInit
    cases z with
    | none => exact ⟨_, rfl⟩
    | some z => simp only [setZ, if_pos (hz z rfl)]; exact ⟨_, rfl⟩
  obtain ⟨hok, eb, ea, ez⟩ := tiiInit_ok b a (by omega) z t ht
  have hp : TiiPos t := by
    refine ⟨by rw [eb]; exact hb, by rw [ea]; exact ha, ?_⟩
    have := hok.1
    rw [eb, ea] at this; omega
  obtain ⟨ys, e1, e2, e3⟩ := tiiCalls_eq tiiProcess id tiiProcess_eq t cs hok hp id
  rw [List.map_id] at e3
  have key : ∀ n : ℕ, n < cs.flatten.length → a.getD 0 0 * withPast [] ys.flatten n
        = ∑ i ∈ range b.length, b.getD i 0 * withPast [] cs.flatten (n - i)
          - ∑ j ∈ Ico 1 a.length, a.getD j 0 * withPast [] ys.flatten (n - j) + (z.getD []).getD n 0 := by
    intro n hn
    have := tiiRun_spec id t cs.flatten hok hp (by rw [ea]; exact h0) n hn
    rw [sum_taps, sum_fb, withPast_nat, e3]
    rw [eb, ea, ez] at this
    simp only [id] at this
    refine this.trans ?_
    congr 1
    cases z with
    | none => simp only [Option.getD_none]; rw [replicate_getD]; simp
    | some => rfl
  refine ⟨t, ys, _, ht, e1, e2, key, ?_⟩
  rintro rfl n hn
  have := key n hn
  simp only [Option.getD_none, List.getD_nil, add_zero] at this
  exact this

example : ((tiiInit (F := ℚ) [1, 2] [2, -1] none).bind
    (fun t => tiiCalls tiiProcess id t [[1], [2, 0], [0]])).map Prod.fst
      = .ok [[1/2], [9/4, 25/8], [25/16]] := by decide +kernel

/-- **C45.** From zero memory `Filter` and `FilterTII` return the same chunks for every sequence of calls
(for filters with at least one memory cell, see `C45_negative_gain`). -/
theorem C45_same (b a : List F) (hb : 0 < b.length) (ha : 0 < a.length) (hab : 1 < max b.length a.length)
    (h0 : a.getD 0 0 ≠ 0) (cs : List (List F)) :
    ∃ f t t', filterInit b a none none = .ok f ∧ tiiInit b a none = .ok t ∧
      tiiCalls tiiProcess id t cs = .ok ((filterCalls id f cs).1, t') := by
  obtain ⟨f, hf⟩ := (C45_filter_init b a none none).1 ⟨by simp, by simp, by rintro rfl; simp at ha⟩
  obtain ⟨l1, d1⟩ := C45_filter b a h0 none none f hf cs
  obtain ⟨t, ys, t', ht, hc, l2, -, d2⟩ := C45_tii b a hb ha hab h0 none (by simp) cs
  refine ⟨f, t, t', hf, ht, ?_⟩
  rw [hc]
  have hl : ∀ zs : List (List F), zs.map List.length = cs.map List.length → zs.flatten.length = cs.flatten.length := by
    intro zs h; rw [List.length_flatten, List.length_flatten, h]
  have : ys.flatten = (filterCalls id f cs).1.flatten := by
    refine diffEq_unique b a h0 [] [] cs.flatten _ _ (by rw [hl _ l1, hl _ l2]) ?_ ?_
    · intro n hn; exact d2 rfl n (by rw [← hl _ l2]; exact hn)
    · intro n hn; exact d1 n (by rw [← hl _ l2]; exact hn)
  rw [List.eq_iff_flatten_eq.2 ⟨this, l2.trans l1.symm⟩]

/-- **C45.** The output of `Filter` does not depend on how the data is split over calls (whatever the
data type conversion `store` of the output array): any sequence of calls produces the output of one call,
and leaves the object in the same state. -/
theorem C45_split_filter (store : F → F) (f : FilterObj F) (cs : List (List F)) :
    (filterCalls store f cs).1.flatten = (filterCall store f cs.flatten).1 ∧
      (filterCalls store f cs).2 = (filterCall store f cs.flatten).2 :=
  filterCalls_flatten store f cs

/-- **C45.** The same for `FilterTII`, from any valid memory. -/
theorem C45_split_tii (store : F → F) (b a : List F) (hb : 0 < b.length) (ha : 0 < a.length)
    (hab : 1 < max b.length a.length) (z : Option (List F)) (t : TiiObj F) (ht : tiiInit b a z = .ok t)
    (cs : List (List F)) :
    ∃ ys t', tiiCalls tiiProcess store t cs = .ok (ys, t') ∧
      tiiCall tiiProcess store t cs.flatten = .ok (ys.flatten, t') := by
  obtain ⟨hok, eb, ea, ez⟩ := tiiInit_ok b a (by omega) z t ht
  have hp : TiiPos t := by
    refine ⟨by rw [eb]; exact hb, by rw [ea]; exact ha, ?_⟩
    have := hok.1
    rw [eb, ea] at this; omega
  obtain ⟨ys, e1, e2, e3⟩ := tiiCalls_eq tiiProcess id tiiProcess_eq t cs hok hp store
  exact ⟨ys, _, e1, by rw [tiiCall_eq tiiProcess id tiiProcess_eq t _ hok hp store, e3]⟩

/-- **C45.** `FilterTII` rejects a memory of the wrong length. -/
theorem C45_tii_rejects (b a z : List F) (h : z.length + 1 ≠ max b.length a.length) :
    tiiInit b a (some z) = .error .valueError := by
  simp only [tiiInit, setZ, if_neg h]; rfl

example : tiiInit (F := ℚ) [1, 2] [1] (some [0, 0]) = .error .valueError := C45_tii_rejects _ _ _ (by decide)

/-- **C45** (negation). For a pure gain (`len(b) = len(a) = 1`) `FilterTII` can be built but raises
IndexError on every non-empty chunk, whereas `Filter` multiplies by `b[0]/a[0]`. -/
theorem C45_negative_gain (b0 a0 x : F) (_h0 : a0 ≠ 0) (xs : List F) :
    (∃ t, tiiInit [b0] [a0] none = .ok t ∧ tiiCall tiiProcess id t (x :: xs) = .error .indexError) ∧
    ∃ f, filterInit [b0] [a0] none none = .ok f ∧ (filterCall id f (x :: xs)).1 = (x :: xs).map (b0 / a0 * ·) := by
  constructor
  · exact ⟨⟨[b0], [a0], [], padTail 0 [b0], padTail 0 [a0]⟩, rfl, rfl⟩
  · refine ⟨⟨[b0], [a0], [0], []⟩, rfl, ?_⟩
    suffices h : ∀ (l : List F) (c : F), (filterCall id ⟨[b0], [a0], [c], []⟩ l).1 = l.map (b0 / a0 * ·) from
      h (x :: xs) 0
    intro l
    induction l with
    | nil => intro c; rfl
    | cons x l ih =>
      intro c
      have : filterProcess ⟨[b0], [a0], [c], []⟩ x = (b0 / a0 * x, ⟨[b0], [a0], [x], []⟩) := by
        simp only [filterProcess, dotL]
        refine Prod.ext ?_ rfl
        simp
        ring
      simp only [filterCall, this, id]
      rw [ih]
      rfl

/-- **C45** (negation). With an integer chunk the output array is an integer array
(`np.zeros_like(data_chunk)`), so the outputs are truncated: the difference equation fails. The filter
`y[n] = x[n] / 2` maps `[1, 2, 3]` to `[0, 1, 1]`. -/
theorem C45_negative_integer :
    ∃ f, filterInit (F := ℚ) [1] [2] none none = .ok f ∧ (filterCall truncQ f [1, 2, 3]).1 = [0, 1, 1] ∧
      ¬ DiffEq [1] [2] (withPast [] [1, 2, 3]) (withPast [] (filterCall truncQ f [1, 2, 3]).1) 0 := by
  refine ⟨⟨[1], [2], [0], []⟩, by rfl, by decide +kernel, ?_⟩
  have : (filterCall truncQ (⟨[1], [2], [0], []⟩ : FilterObj ℚ) [1, 2, 3]).1 = [0, 1, 1] := by decide +kernel
  rw [this]
  unfold DiffEq
  simp [withPast]

end Verif
