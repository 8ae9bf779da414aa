import Verif.Lemmas.ConvStream

/-! Lemmas: checking the distance hypotheses of a concrete convolutional code on its codebook. -/

namespace Verif
open Spec

theorem code_distance {nO n d : ℕ} {G : ConvG} {fb : Fb} (h : GoodCode nO G fb) (hpos : 0 < nO) (hf : Fits nO G fb)
    (hcb : ∀ x ∈ convPairs G n, ∀ y ∈ convPairs G n, x.2 ≠ y.2 →
      (d : Int) ≤ hammingDist (cw G (fb.map Prod.fst) (fb.map Prod.snd) 0 x.1 x.2)
        (cw G (fb.map Prod.fst) (fb.map Prod.snd) 0 y.1 y.2)) :
    ∀ v v' c c', Word (G.length * n) v → Word (G.length * n) v' → IsCode nO n G fb v c →
      IsCode nO n G fb v' c' → v ≠ v' → d ≤ dist (n * nO) c c' := by
  intro v v' c c' hv hv' hc hc' hne
  obtain ⟨s, hs, e⟩ := isCode_cw h hpos hf 0 v c hv hc
  obtain ⟨s', hs', e'⟩ := isCode_cw h hpos hf 0 v' c' hv' hc'
  have := hcb (s, v) ((mem_convPairs G n s v).2 ⟨hs, hv⟩) (s', v') ((mem_convPairs G n s' v').2 ⟨hs', hv'⟩) hne
  rw [hammingDist_eq (n * nO) _ _ (cw_isCode h hpos hf 0 s v hs hv).2 (cw_isCode h hpos hf 0 s' v' hs' hv').2,
    dist_congr (n * nO) (fun q _ => e q) (fun q _ => e' q)] at this
  exact_mod_cast this

theorem code_determined {nO n : ℕ} {G : ConvG} {fb : Fb} (h : GoodCode nO G fb) (hpos : 0 < nO) (hf : Fits nO G fb)
    (hcb : ∀ x ∈ convPairs G n, ∀ y ∈ convPairs G n,
      cw G (fb.map Prod.fst) (fb.map Prod.snd) 0 x.1 x.2 = cw G (fb.map Prod.fst) (fb.map Prod.snd) 0 y.1 y.2 → x.2 = y.2) :
    ∀ v v' c, Word (G.length * n) v → Word (G.length * n) v' → IsCode nO n G fb v c →
      IsCode nO n G fb v' c → v = v' := by
  intro v v' c hv hv' hc hc'
  obtain ⟨s, hs, e⟩ := isCode_cw h hpos hf 0 v c hv hc
  obtain ⟨s', hs', e'⟩ := isCode_cw h hpos hf 0 v' c hv' hc'
  refine hcb (s, v) ((mem_convPairs G n s v).2 ⟨hs, hv⟩) (s', v') ((mem_convPairs G n s' v').2 ⟨hs', hv'⟩) ?_
  have w1 := (cw_isCode h hpos hf 0 s v hs hv).2.1
  have w2 := (cw_isCode h hpos hf 0 s' v' hs' hv').2.1
  apply ext_getD 0 (by rw [w1, w2])
  intro q _
  exact (e q).trans (e' q).symm

/-- decidable form of `GoodG` -/
def goodGb (nO : ℕ) (G : ConvG) : Bool :=
  !G.isEmpty && G.all (fun g => decide (g.length = nO) && (g.all (fun r => decide (0 < r.length) &&
    decide (r.length = (g.headD []).length) && r.all (fun x => x == 0 || x == 1))))

theorem goodG_of {nO : ℕ} {G : ConvG} (hpos : 0 < nO) (h : goodGb nO G = true) : GoodG nO G := by
  simp only [goodGb, Bool.and_eq_true, Bool.not_eq_true', List.isEmpty_eq_false_iff, List.all_eq_true,
    decide_eq_true_eq, Bool.or_eq_true, beq_iff_eq] at h
  refine ⟨h.1, fun g hg => ?_⟩
  obtain ⟨h1, h2⟩ := h.2 g hg
  refine ⟨h1, (g.headD []).length, ?_, fun r hr => ⟨(h2 r hr).1.2, (h2 r hr).2⟩⟩
  cases g with
  | nil => simp at h1; omega
  | cons a g => exact (h2 a (by simp)).1.1

/-- the rate 1/2 code with polynomials 1+D+D^2 and 1+D^2 -/
def ex75 : ConvG := [[[1, 1, 1], [1, 0, 1]]]

theorem ex75_good : GoodCode 2 ex75 none := ⟨goodG_of (by decide) (by decide), fun l u h => by cases h⟩

theorem fits_none (nO : ℕ) (G : ConvG) : Fits nO G none := fun l u h => by cases h

theorem directLong_none (nO : ℕ) (G : ConvG) : DirectLong nO G none := fun i j _ _ h => by cases h

/-- the same code with every output sent three times -/
def ex75r : ConvG := [[[1, 1, 1], [1, 0, 1], [1, 1, 1], [1, 0, 1], [1, 1, 1], [1, 0, 1]]]

theorem ex75r_good : GoodCode 6 ex75r none := ⟨goodG_of (by decide) (by decide), fun l u h => by cases h⟩

end Verif
