import Verif.Spec.Conv

/-! Independent specification of paths through a convolutional encoder and of the paths that survive a selection by the
last transition alone. -/

namespace Verif.Spec

/-- contents of all register cells before step `t`: input after input, the newest cell first -/
def cellsAt (G : List (List (List Int))) (w : ℕ → ℤ → Int) (t : ℤ) : List Int :=
  (List.range G.length).flatMap fun i => (List.range ((tf G i 0).length - 1)).map fun k : ℕ => w i (t - 1 - k)

/-- the number with these binary digits, most significant first -/
def wordNum (l : List Int) : Int := l.foldl (fun a b => 2 * a + b) 0

/-- the registers `w` are driven by `data` from some binary contents -/
def IsRun (G : List (List (List Int))) (fb : Fb) (data : List Int) (w : ℕ → ℤ → Int) : Prop :=
  ∀ i < G.length, IsRegister (poly fb i) (inBit data G.length i) (w i) ∧ ∀ t < 0, w i t = 0 ∨ w i t = 1

/-- bit `j` of the output of step `t` -/
def runBit (G : List (List (List Int))) (fb : Fb) (data : List Int) (w : ℕ → ℤ → Int) (t j : ℕ) : Int :=
  encBit G.length (tf G) (fun i j => isDirect fb i j = true) (inBit data G.length) w j t

/-- number of bits in which the output of step `t` of a run differs from step `q` of the received bits `r` -/
def stepDist (nO : ℕ) (G : List (List (List Int))) (fb : Fb) (data : List Int) (w : ℕ → ℤ → Int) (t : ℕ) (r : ℕ → Int)
    (q : ℕ) : ℕ :=
  dist nO (runBit G fb data w t) (fun j => r (q * nO + j))

/-- number of bits in which `n` steps of a run differ from the received bits -/
def runDist (nO n : ℕ) (G : List (List (List Int))) (fb : Fb) (data : List Int) (w : ℕ → ℤ → Int) (r : ℕ → Int) : ℕ :=
  ∑ t ∈ Finset.range n, stepDist nO G fb data w t r t

/-- A run of `n` steps that survives: every step is, among all transitions into the register contents it leads to, the one
closest to the received bits; of several equally close ones it is the one that leaves from the smallest register contents. -/
def IsSurvivor (nO n : ℕ) (G : List (List (List Int))) (fb : Fb) (r : ℕ → Int) (data : List Int) (w : ℕ → ℤ → Int) : Prop :=
  IsRun G fb data w ∧ ∀ t < n, ∀ u' w', Word G.length u' → IsRun G fb u' w' → cellsAt G w' 1 = cellsAt G w (t + 1) →
    stepDist nO G fb data w t r t < stepDist nO G fb u' w' 0 r t ∨
      stepDist nO G fb data w t r t = stepDist nO G fb u' w' 0 r t ∧ wordNum (cellsAt G w t) ≤ wordNum (cellsAt G w' 0)

/-- the numbers of the register contents in which those surviving runs end that differ from the received bits in `d` places -/
def endsAt (nO n : ℕ) (G : List (List (List Int))) (fb : Fb) (r : ℕ → Int) (d : ℕ) : Set Int :=
  {e | ∃ v w, Word (G.length * n) v ∧ IsSurvivor nO n G fb r v w ∧ runDist nO n G fb v w r = d ∧ wordNum (cellsAt G w n) = e}

/-- transitions into the same register contents from different ones differ in at least `D` output bits -/
def MergeDist (nO : ℕ) (G : List (List (List Int))) (fb : Fb) (D : ℕ) : Prop :=
  ∀ u u' w w', Word G.length u → Word G.length u' → IsRun G fb u w → IsRun G fb u' w' →
    cellsAt G w 1 = cellsAt G w' 1 → cellsAt G w 0 ≠ cellsAt G w' 0 → D ≤ dist nO (runBit G fb u w 0) (runBit G fb u' w' 0)

/-- two runs of `m` steps whose register contents differ after every step differ in at least `D` output bits -/
def ApartDist (nO : ℕ) (G : List (List (List Int))) (fb : Fb) (m D : ℕ) : Prop :=
  ∀ v v' w w', Word (G.length * m) v → Word (G.length * m) v' → IsRun G fb v w → IsRun G fb v' w' →
    (∀ t : ℕ, t < m → cellsAt G w (t + 1) ≠ cellsAt G w' (t + 1)) →
    D ≤ ∑ t ∈ Finset.range m, dist nO (runBit G fb v w t) (runBit G fb v' w' t)

/-- the same for runs that start from the same register contents -/
def DivergeDist (nO : ℕ) (G : List (List (List Int))) (fb : Fb) (m D : ℕ) : Prop :=
  ∀ v v' w w', Word (G.length * m) v → Word (G.length * m) v' → IsRun G fb v w → IsRun G fb v' w' →
    cellsAt G w 0 = cellsAt G w' 0 → (∀ t : ℕ, t < m → cellsAt G w (t + 1) ≠ cellsAt G w' (t + 1)) →
    D ≤ ∑ t ∈ Finset.range m, dist nO (runBit G fb v w t) (runBit G fb v' w' t)

/-- `c` starts with the output of `n` steps for `data` from the register contents `s` and is zero afterwards -/
def IsCodeFrom (nO n : ℕ) (G : List (List (List Int))) (fb : Fb) (s data : List Int) (c : ℕ → Int) : Prop :=
  ∃ w, IsRun G fb data w ∧ cellsAt G w 0 = s ∧ (∀ t j, t < n → j < nO → c (t * nO + j) = runBit G fb data w t j) ∧
    ∀ q, n * nO ≤ q → c q = 0

/-- pairs of register contents and data whose output differs from the block `b` of `tb` bits in `d` places -/
def pairsAt (nO n tb : ℕ) (G : List (List (List Int))) (fb : Fb) (b : ℕ → Int) (d : ℕ) : Set (List Int × List Int) :=
  {x | Word (G.length * n) x.2 ∧ ∃ c, IsCodeFrom nO n G fb x.1 x.2 c ∧ dist tb c b = d}

end Verif.Spec
