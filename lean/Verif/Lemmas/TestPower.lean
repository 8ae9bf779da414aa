import Verif.Spec.TestPower
import Verif.Props.CodingTests

/-! The references of the coding tests have the closed forms of the specification. -/

namespace Verif
open Spec

theorem py_bind_ok {α β : Type} (a : α) (f : α → Py β) : ((Except.ok a : Py α) >>= f) = f a := rfl

theorem test_iff {α : Type} [BEq α] [LawfulBEq α] (x : Py α) (r : α) :
    ((do let d ← x; return r == d) : Py Bool) = .ok true ↔ x = .ok r := by
  cases x with
  | error e => simp [bind, Except.bind]
  | ok d =>
    simp only [bind, Except.bind, pure, Except.pure, Except.ok.injEq, beq_iff_eq]
    exact eq_comm

theorem spec_iff {α : Type} {x : Py α} {r : α} {P : α → Prop} (h : P r) (u : ∀ q, P q → q = r) :
    x = .ok r ↔ ∃ q, x = .ok q ∧ P q :=
  ⟨fun e => ⟨r, e, h⟩, fun ⟨q, e, hq⟩ => by rw [e, u q hq]⟩

theorem gray_unique {p q r : List Int} (h : GrayCoded p r) (hq : GrayCoded p q) : q = r :=
  ext_getD 0 (hq.1.trans h.1.symm) (fun i hi => by rw [hq.2 i (hq.1 ▸ hi), h.2 i (hq.1 ▸ hi)])

theorem grayRef_spec (c : Constellation) (p : List Int) (h : SymbolDraw c p) : GrayCoded p (grayRef c p) := by
  have hx : ∀ i < p.length, 0 ≤ p.getD i 0 ∧ p.getD i 0 < 2 ^ testBits c :=
    fun i hi => h.2 _ (mem_of_getD 0 _ hi)
  unfold grayRef
  split
  · rename_i hb
    refine ⟨by simp, fun i hi => ?_⟩
    rw [getD_map_lt _ 0 0 _ hi]
    have := hx i hi
    rw [hb] at this
    generalize p.getD i 0 = x at this
    have : x = 0 ∨ x = 1 ∨ x = 2 ∨ x = 3 := by omega
    rcases this with rfl | rfl | rfl | rfl <;> decide
  · rename_i hb
    refine ⟨rfl, fun i hi => ?_⟩
    have hb1 : testBits c = 1 := by
      revert hb
      cases c <;> decide
    have := hx i hi
    rw [hb1] at this
    generalize p.getD i 0 = x at this
    have : x = 0 ∨ x = 1 := by omega
    rcases this with rfl | rfl <;> decide

theorem diffRec_unique {m : Int} {p q r : List Int} (h : DiffRecurrence m p r) (hq : DiffRecurrence m p q) : q = r := by
  apply ext_getD 0 (hq.1.trans h.1.symm)
  intro i
  induction i with
  | zero =>
    intro hi
    rw [hq.2 0 (hq.1 ▸ hi), h.2 0 (hq.1 ▸ hi)]
    rfl
  | succ i ih =>
    intro hi
    rw [hq.2 _ (hq.1 ▸ hi), h.2 _ (hq.1 ▸ hi)]
    simp only [Nat.add_sub_cancel, Nat.succ_ne_zero, if_false]
    rw [ih (by omega)]

theorem diffRef_spec (c : Constellation) (p : List Int) :
    DiffRecurrence ((intLevels c).length : Int) p (diffRef ((intLevels c).length : Int) 0 p) := by
  have := diffRef_eq ((intLevels c).length : Int) p 0
  rw [Int.zero_emod] at this
  rw [this]
  exact (C22_code_valid c p).2

theorem pairs_ext {p q r : List Int} (hq : q.length = 2 * p.length) (hr : r.length = 2 * p.length)
    (h : ∀ i < p.length, q.getD (2 * i) 0 = r.getD (2 * i) 0 ∧ q.getD (2 * i + 1) 0 = r.getD (2 * i + 1) 0) : q = r := by
  apply ext_getD 0 (hq.trans hr.symm)
  intro i hi
  rcases Nat.even_or_odd' i with ⟨k, rfl | rfl⟩
  · exact (h k (by omega)).1
  · exact (h k (by omega)).2

theorem manchester_unique {p q r : List Int} (h : ManchesterCoded p r) (hq : ManchesterCoded p q) : q = r :=
  pairs_ext hq.1 h.1 (fun i hi => ⟨by rw [(hq.2 i hi).1, (h.2 i hi).1], by rw [(hq.2 i hi).2, (h.2 i hi).2]⟩)

theorem manchesterRef_spec (p : List Int) : ManchesterCoded p (manchesterRef p) := by
  rw [manchesterRef_eq]
  refine ⟨?_, fun i hi => ?_⟩
  · rw [flatten_uniform_length 2 _ (by intro r hr; rw [List.mem_map] at hr; obtain ⟨_, _, rfl⟩ := hr; rfl)]
    simp [mul_comm]
  · exact flatten_pairs_getD (fun b => b) (fun b => 1 - b) p i hi

theorem bipolar_unique {p q r : List Int} (h : BipolarCoded p r) (hq : BipolarCoded p q) : q = r :=
  ext_getD 0 (hq.1.trans h.1.symm) (fun i hi => by rw [hq.2 i (hq.1 ▸ hi), h.2 i (hq.1 ▸ hi)])

theorem bipolarRef_spec (p : List Int) (hb : IsBinary p) : BipolarCoded p (bipolarRef (-1) p) := by
  have e := bipolarRef_eq p hb 0 le_rfl
  rw [if_pos (by norm_num)] at e
  obtain ⟨c, h1, h2, h3⟩ := codingBipolar_eq hb
  have ec : bipolarRef (-1) p = c := by
    rw [e]
    unfold codingBipolar at h1
    rw [checkBinary_ok hb] at h1
    exact Except.ok.inj h1
  rw [ec]
  refine ⟨h2, fun i hi => ?_⟩
  rw [h3 i hi, pre_succ, pre_count hb]
  unfold onesBefore
  generalize (p.take i).count 1 = n
  rcases binary_getD hb i with e | e <;> rw [e]
  · simp
  · rcases Nat.mod_two_eq_zero_or_one n with hn | hn
    · rw [if_neg (by omega), if_neg (by norm_num), if_pos hn]; norm_num
    · rw [if_pos (by omega), if_neg (by norm_num), if_neg (by omega)]; norm_num

theorem mlt3_unique {p q r : List Int} (h : Mlt3Coded p r) (hq : Mlt3Coded p q) : q = r :=
  ext_getD 0 (hq.1.trans h.1.symm) (fun i hi => by rw [hq.2 i (hq.1 ▸ hi), h.2 i (hq.1 ▸ hi)])

theorem mlt3Ref_spec (p : List Int) (hb : IsBinary p) : Mlt3Coded p (mlt3Ref 0 p) := by
  have e := mlt3Ref_eq p hb 0
  rw [show (0 : ℕ) % 4 = 0 from rfl] at e
  obtain ⟨c, h1, h2, h3⟩ := C27_cycle p hb
  have ec : mlt3Ref 0 p = c := by
    rw [e]
    unfold codingMlt3 at h1
    rw [checkBinary_ok hb] at h1
    exact Except.ok.inj h1
  rw [ec]
  exact ⟨h2, h3⟩

theorem diffManchester_unique {p q r : List Int} (h : DiffManchesterCoded p r) (hq : DiffManchesterCoded p q) : q = r :=
  pairs_ext hq.1 h.1 (fun i hi => ⟨by rw [(hq.2 i hi).1, (h.2 i hi).1],
    by rw [(hq.2 i hi).2, (h.2 i hi).2, (hq.2 i hi).1, (h.2 i hi).1]⟩)

theorem dmCells_closed (p : List Int) (hb : IsBinary p) : ∀ s : ℕ, s < 2 → ∀ i < p.length,
    (dmCells (s : Int) p).flatten.getD (2 * i) 0 = (((s + onesBefore p i) % 2 : ℕ) : Int) ∧
    (dmCells (s : Int) p).flatten.getD (2 * i + 1) 0 = if p.getD i 0 = 0 then 1 - (dmCells (s : Int) p).flatten.getD (2 * i) 0
      else (dmCells (s : Int) p).flatten.getD (2 * i) 0 := by
  induction p with
  | nil => intro s _ i hi; simp at hi
  | cons b t ih =>
    intro s hs i hi
    have hb0 := hb b (by simp)
    have iht := ih (fun x hx => hb x (by simp [hx]))
    unfold dmCells
    rw [List.flatten_cons]
    cases i with
    | zero =>
      refine ⟨?_, ?_⟩
      · simp [onesBefore]; omega
      · simp
    | succ i =>
      have e1 : 2 * (i + 1) = 2 * i + 1 + 1 := by ring
      have hi' : i < t.length := by simpa using hi
      rw [e1]
      simp only [List.cons_append, List.nil_append, List.getD_cons_succ]
      rcases hb0 with rfl | rfl
      · simp only [if_true]
        have := iht s hs i hi'
        refine ⟨?_, this.2⟩
        rw [this.1]
        simp [onesBefore]
      · have e2 : (if (1 : Int) = 0 then (s : Int) else 1 - s) = ((1 - s : ℕ) : Int) := by
          rw [if_neg (by norm_num)]; omega
        rw [e2]
        have := iht (1 - s) (by omega) i hi'
        refine ⟨?_, this.2⟩
        rw [this.1]
        simp only [onesBefore, List.take_succ_cons, List.count_cons_self]
        congr 1
        omega

theorem diffManchesterRef_spec (p : List Int) (hb : IsBinary p) : DiffManchesterCoded p (diffManchesterRef 0 p) := by
  rw [diffManchesterRef_eq p hb 0 (by norm_num)]
  refine ⟨(dmCells_spec p hb _ (Or.inl rfl)).2.1, fun i hi => ?_⟩
  have := dmCells_closed p hb 0 (by norm_num) i hi
  rwa [zero_add] at this

theorem parity_unique {k : ℕ} {p q r : List Int} (h : ParityCoded k p r) (hq : ParityCoded k p q) : q = r := by
  apply ext_getD 0 (hq.1.trans h.1.symm)
  intro i hi
  rw [hq.1] at hi
  have hb : i / (k + 1) < (p.length + k - 1) / k := Nat.div_lt_of_lt_mul hi
  have hd := Nat.div_add_mod i (k + 1)
  have hm : i % (k + 1) < k + 1 := Nat.mod_lt i (Nat.succ_pos k)
  rw [← hd]
  rcases Nat.lt_or_ge (i % (k + 1)) k with hlt | hge
  · rw [(hq.2 _ hb).1 _ hlt, (h.2 _ hb).1 _ hlt]
  · rw [show i % (k + 1) = k by omega, (hq.2 _ hb).2, (h.2 _ hb).2]

theorem parityRef_spec (k : ℕ) (hk : 0 < k) (p : List Int) (hp : IsBinary p) : ParityCoded k p (parityRef k p) := by
  have e := C85_linear_coding k hk p hp
  unfold codingLinearTest codingLinearTestOf at e
  rw [test_iff] at e
  obtain ⟨c, h1, -, h3, h4⟩ := C30_encoder (parityG_matrix k) (by rw [parityG_length]; exact hk) p hp
  rw [e] at h1
  cases h1
  rw [parityG_length] at h3 h4
  refine ⟨h3, fun i hi => ⟨fun j hj => ?_, ?_⟩⟩
  · rw [mul_comm (k + 1) i, h4 i j hi (by omega), parity_codeBit k _ j (by omega), if_neg (by omega), mul_comm k i]
    unfold block
    rcases binary_getD hp (i * k + j) with e | e <;> rw [e] <;> rfl
  · rw [mul_comm (k + 1) i, h4 i k hi (by omega), parity_codeBit k _ k (by omega), if_pos rfl, mul_comm k i]
    rfl

theorem arrayCoded_iff {P : List Int → List Int → Prop} {ref : List Int → List Int} {w : ℕ} {m : List (List Int)}
    (hm : m.length = 100) (hlen : (ref m.flatten).length = 100 * w) (hs : P m.flatten (ref m.flatten))
    (hu : ∀ q, P m.flatten q → q = ref m.flatten) (enc : List (List Int) → Py (List (List Int))) :
    lineCoderTestOf ref w enc m = .ok true ↔ ∃ c, enc m = .ok c ∧ ArrayCoded P w m c := by
  unfold lineCoderTestOf
  rw [test_iff]
  apply spec_iff
  · refine ⟨by rw [reshape2_length, hm], reshape2_mat _ _ _ hlen, ?_⟩
    rw [reshape2_flat _ _ _ hlen]
    exact hs
  · rintro c ⟨h1, h2, h3⟩
    rw [← hu _ h3, ← hm, ← h1, reshape2_of_flat h2]

end Verif
