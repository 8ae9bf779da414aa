import Verif.Lemmas.ChanWitness

/-! The numbers of a draw for which the test of the equalization estimation fails. -/

namespace Verif

/-- 64 times the polynomial with the roots 1/2 (four times) and -1/2 (twice) -/
def eqWitPoly : List ℤ := [64, -64, -16, 32, -4, -4, 1]

/-- the first 262 samples behind the channel, times 65536 and rounded -/
def eqWitOut : List ℤ :=
    [-65536, -131072, -212992, -278528, -335872, -376832, -276480, -296960, -278272, -320000, -342208, -378560, -270208,
    -160960, -141808, -152528, -208237, -262034, -186994, -229801, -100329, -156827, -157355, -233889, -146990, -73730,
    53934, 152530, 115996, 51485, 70814, -25793, -83428, -182735, -119328, -186824, -67685, -5423, -12044, -61373, -10179,
    44386, 138030, 84176, 157743, 47333, 121777, 2397, -43398, -26649, 34944, 122538, 205669, 279952, 205761, 248710,
    114605, 36803, -97293, -186901, -144598, -71564, 45702, 16237, -21290, -116208, -63470, -142424, -166753, -113935,
    -160844, -182540, -118579, -33574, -52053, 44698, 97701, 62709, 126822, 28178, 103778, 122275, 78914, 131837, 162230,
    234956, 286084, 209433, 246158, 243774, 165091, 64718, -57428, -30910, 9618, -24377, 56895, -26077, -65634, -35504,
    -102528, -10744, 40291, 148491, 90798, 166787, 184226, 258027, 169480, 90117, 89529, 117889, 53517, -15118, 13433,
    -71085, 14682, -74784, 29023, -65917, 40532, 72432, 177970, 240211, 311983, 356677, 395120, 287766, 174403, 21286,
    -102420, -212729, -291801, -220503, -260421, -255212, -305535, -333359, -373171, -266989, -159044, -140685, -151872,
    -207859, -261817, -186871, -229731, -100289, -156804, -157342, -233881, -146985, -73727, 53936, 152531, 115997, 51486,
    70815, -25792, -83427, -182734, -119327, -186824, -67685, -5424, -12045, -61374, -10180, 44385, 138029, 84175, 157742,
    47332, 121776, 2396, -43399, -26650, 34943, 122537, 205668, 279951, 205760, 248709, 114604, 36802, -97294, -186901,
    -144597, -71562, 45704, 16239, -21288, -116206, -63468, -142422, -166752, -113935, -160845, -182541, -118580, -33574,
    -52053, 44698, 97701, 62709, 126822, 28178, 103778, 122275, 78914, 131837, 162230, 234956, 286084, 209433, 246158,
    243774, 165091, 64718, -57428, -30910, 9618, -24377, 56895, -26077, -65634, -35504, -102528, -10744, 40291, 148491,
    90798, 166787, 184226, 258027, 169480, 90117, 89529, 117889, 53517, -15118, 13433, -71085, 14682, -74784, 29023,
    -65917, 40532, 72432, 177970, 240211, 311983, 356677, 395120, 287766, 174403, 21286, -102420, -212729, -291801,
    -220503, -260421]

/-- sample `n` of the approximation shifted by `k`, zero before the start -/
def eqWitAt (n k : ℕ) : ℤ := if k ≤ n then eqWitOut.getD (n - k) 0 else 0

theorem eqWit_eq : ∀ n < 262, (((List.range 7).map fun k => eqWitPoly.getD k 0 * eqWitAt n k).sum - 64 * 65536 * wit7 n).natAbs ≤ 64 := by
  decide +kernel

theorem eqWit_bound : ∀ n < 262, (eqWitOut.getD n 0).natAbs ≤ 396000 := by
  decide +kernel

theorem eqWit_best : ∀ r < 127, r ≠ 6 → ((List.range 254).map fun i => wit7 (i + r) * eqWitOut.getD (i + 8) 0).sum + 40000
    < ((List.range 254).map fun i => wit7 (i + 6) * eqWitOut.getD (i + 8) 0).sum := by
  decide +kernel

theorem eqWit_count : 61 ≤ ((List.range 120).filter fun i => wit7 (i + 14) ≠ wit7 (i + 12)).length := by
  decide +kernel

end Verif
