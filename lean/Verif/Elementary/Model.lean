import Verif.Rounding.Props
import Verif.Bounds.Sqrt

/-!
# Elementary functions of double-precision numbers

Model of the rounded elementary functions of source/numeric/double.cpp, function by function.  They are used for
`exp(rnd,x)`, `log(rnd,x)`, `sin(rnd,x)`, ... of `FloatDP` (source/numeric/floatdp.hpp, source/numeric/rounded_float.hpp), and so for
`Bounds<FloatDP>`.

Doubles are rational numbers here; there are no infinities, nothing overflows, and the type `long int` is not bounded.
All operations round in the direction which is set in the processor.  A failed assertion gives `none`.
-/

namespace Verif.Elementary

open Ariadne (Rounding)

/-- The rounding direction that is set, with what `pi_rnd` and `pi_opp` (256-272) give in it.  Only downward and upward
rounding are modelled. -/
structure Mode where
  rnd : ℚ → ℚ
  piRnd : ℚ
  piOpp : ℚ

/-! ## Constants

The decimal literals of the code are the doubles given here. -/

/-- `_pi_up` (54) -/
def piUp : ℚ := 7074237752028441 / 2 ^ 51
/-- `_pi_down` (55), which is also `_pi_approx` (58) -/
def piDown : ℚ := 7074237752028440 / 2 ^ 51
/-- `_quarter_pi_approx` (57) -/
def quarterPi : ℚ := 7074237752028440 / 2 ^ 53
/-- `_two_pi_approx` (59) -/
def twoPi : ℚ := 7074237752028440 / 2 ^ 50
/-- `_sqrt2_approx` (60), which is about the inverse of the square root -/
def sqrtHalf : ℚ := 6369051672525773 / 2 ^ 53
/-- `_log2_approx` (61) -/
def log2 : ℚ := 6243314768165359 / 2 ^ 53
/-- `1e-300` (72, 76) -/
def tiny : ℚ := 6032057205060441 / 2 ^ 1049
/-- `0.7853981634` (424, 438, 453, 470) -/
def seriesMax : ℚ := 221069929751607 / 2 ^ 48

/-- The mode set by `set_builtin_rounding_upward`. -/
def upward (R : Rounding ℚ) : Mode := ⟨R.up, piUp, piDown⟩

/-- The mode set by `set_builtin_rounding_downward`. -/
def downward (R : Rounding ℚ) : Mode := ⟨R.down, piDown, piUp⟩

/-- Double precision -/
def R53 : Rounding ℚ := Ariadne.PBit.rounding 53 (by norm_num)

/-- Rounding upwards in double precision -/
def up53 : Mode := upward R53

/-- Rounding downwards in double precision -/
def down53 : Mode := downward R53

variable (m : Mode)

/-- The result of an operation in the opposite direction: the operation is done with a negated argument, and the
result is negated (330-333). -/
def Mode.opp (x : ℚ) : ℚ := -m.rnd (-x)

/-- `next_rnd` (71-73) -/
def nextRnd (x : ℚ) : ℚ := m.rnd (m.rnd (x + tiny) - tiny)

/-- `next_opp` (75-77) -/
def nextOpp (x : ℚ) : ℚ := -m.rnd (m.rnd (-x + tiny) - tiny)

/-- `horner_rnd` (80-87): the list has the coefficients `c[0]`, ..., `c[n]`. -/
def hornerRnd (x : ℚ) : List ℤ → ℚ
  | [] => 0
  | [c] => m.rnd (1 / c)
  | c :: d :: cs => m.rnd (m.rnd (1 / c) + m.rnd (x * hornerRnd x (d :: cs)))

/-- The variable `y` of `horner_opp` (91-94). -/
def hornerNeg (x : ℚ) : List ℤ → ℚ
  | [] => 0
  | [c] => m.rnd (-1 / c)
  | c :: d :: cs => m.rnd (m.rnd (-1 / c) + m.rnd (x * hornerNeg x (d :: cs)))

/-- `horner_opp` (89-96) -/
def hornerOpp (x : ℚ) (cs : List ℤ) : ℚ := -hornerNeg m x cs

/-! ## Exponential and logarithm -/

/-- The coefficients in `exp_rnd` (163) -/
def expCoeffs : List ℤ := [1, 6, -360, 15120, -604800, 23950080, -946218790]

/-- The variable `n` of `exp_rnd` (176) -/
def expN (x : ℚ) : ℤ := ⌊m.rnd (m.rnd (x / log2) + 1 / 2)⌋

/-- The variable `r` of `exp_rnd` (179-180) -/
def expR (x : ℚ) : ℚ :=
  let n := expN m x
  m.rnd (x + m.rnd (-n * (if 0 < n then nextOpp m log2 else nextRnd m log2)))

/-- The variable `w` of `exp_rnd` (185-197) -/
def expW (r : ℚ) : ℚ :=
  if r < 0 then m.rnd (1 + hornerRnd m (m.rnd (r * r)) expCoeffs)
  else -m.rnd (-1 - hornerOpp m (-m.rnd (-r * r)) expCoeffs)

/-- The variable `y` of `exp_rnd` (199-200) -/
def expY (r : ℚ) : ℚ :=
  let w := expW m r
  m.rnd (m.rnd (w + r) / -m.rnd (r - w))

/-- `exp_rnd` (161-208).  The bounds for `r` are the double nearest to 0.4. -/
def expRnd (x : ℚ) : Option ℚ :=
  if x = 0 then some 1
  else
    let r := expR m x
    if -(3602879701896397 / 2 ^ 53) ≤ r ∧ r ≤ 3602879701896397 / 2 ^ 53 then some (expY m r * 2 ^ expN m x)
    else none

/-- The coefficients which are used in `log_rnd` (214, 241, 248) -/
def logCoeffs : List ℤ := [1, 3, 5, 7, 9, 11, 13, 15, 17, 19, 21]

/-- The exponent and the significand given by `frexp` (234) for positive numbers. -/
def frexp (x : ℚ) : ℚ × ℤ :=
  let e := Int.log 2 x + 1
  (x / 2 ^ e, e)

/-- The variables `y` and `n` of `log_rnd` (234-235) -/
def logArg (x : ℚ) : ℚ × ℤ :=
  let (y, n) := frexp x
  if y < sqrtHalf then (m.rnd (y * 2), n - 1) else (y, n)

/-- The variable `ly` of `log_rnd` (237-250) -/
def logY (y : ℚ) : ℚ :=
  if 1 ≤ y then
    let z := m.rnd (m.rnd (y - 1) / -m.rnd (-1 - y))
    let w := hornerRnd m (m.rnd (z * z)) logCoeffs
    m.rnd (m.rnd (2 * z) * w)
  else
    let z := m.rnd (-m.rnd (1 - y) / m.rnd (1 + y))
    let w := hornerOpp m (-m.rnd (-z * z)) logCoeffs
    m.rnd (m.rnd (2 * z) * w)

/-- The results of `log_rnd`: a number, plus infinity, or none. -/
inductive LogResult
  | val (x : ℚ)
  | inf
  | fail
deriving DecidableEq

/-- `log_rnd` (213-254) -/
def logRnd (x : ℚ) : LogResult :=
  if x < 0 then .fail
  else if x = 0 then .inf
  else if x = 1 then .val 0
  else
    let (y, n) := logArg m x
    let l := if 0 ≤ n then nextRnd m log2 else nextOpp m log2
    .val (m.rnd (m.rnd (l * n) + logY m y))

/-! ## Series for sine and cosine -/

/-- The coefficients of the sine (425, 439) -/
def sinCoeffs : List ℤ :=
  [1, -6, 120, -5040, 362880, -39916800, 6227020800, -1307674368000, 355687428096000]

/-- The coefficients of the cosine (455, 472) -/
def cosCoeffs : List ℤ :=
  [1, -2, 24, -720, 40320, -3628800, 479001600, -87178291200, 20922789888000]

/-- The assertions of the series (423-424, 437-438, 452-453, 469-470) -/
def SeriesDom (x : ℚ) : Prop := 0 ≤ x ∧ x ≤ seriesMax

instance (x : ℚ) : Decidable (SeriesDom x) := inferInstanceAs (Decidable (_ ∧ _))

/-- `pos_sin_rnd_series` (422-434) -/
def posSin (x : ℚ) : Option ℚ :=
  if SeriesDom x then some (m.rnd (x * hornerRnd m (m.rnd (x * x)) sinCoeffs)) else none

/-- `neg_sin_rnd_series` (436-448) -/
def negSin (x : ℚ) : Option ℚ :=
  if SeriesDom x then some (m.rnd (x * -hornerOpp m (-m.rnd (-x * x)) sinCoeffs)) else none

/-- `pos_cos_rnd_series` (451-466) -/
def posCos (x : ℚ) : Option ℚ :=
  if SeriesDom x then some (hornerRnd m (-m.rnd (-x * x)) cosCoeffs) else none

/-- `neg_cos_rnd_series` (468-478) -/
def negCos (x : ℚ) : Option ℚ :=
  if SeriesDom x then some (-hornerOpp m (m.rnd (x * x)) cosCoeffs) else none

/-! ## Sine and cosine -/

/-- The variable `q` of `sin_rnd` (281-282) -/
def sinQ (x : ℚ) : ℤ :=
  let q := Int.tmod ⌊m.rnd (x / quarterPi)⌋ 8
  let q := if q < -4 then q + 8 else q
  if 4 ≤ q then q - 8 else q

/-- The variable `y` of `sin_rnd` (283-293) -/
def sinY (x : ℚ) : ℚ :=
  let q := sinQ m x
  let n : ℤ := -⌊m.rnd (m.rnd (x / twoPi) + 1 / 2)⌋
  let opposite : Bool := q < -2 || 2 ≤ q
  let corr := if xor (decide (0 ≤ n)) opposite then m.rnd (2 * m.piRnd) else m.rnd (2 * m.piOpp)
  if opposite then -m.rnd (-x + m.rnd (-n * corr)) else m.rnd (x + m.rnd (n * corr))

/-- `sin_rnd` (274-311).  The summand `0*half_pi_opp` (302-303) is zero. -/
def sinRnd (x : ℚ) : Option ℚ :=
  let hpr := m.rnd (m.rnd (2 * m.piRnd) / 4)
  let hpo := m.rnd (m.rnd (2 * m.piOpp) / 4)
  let y := sinY m x
  if ¬(-twoPi ≤ y ∧ y ≤ twoPi) then none
  else if sinQ m x = -4 then negSin m (-m.rnd (-y - m.rnd (2 * hpo)))
  else if sinQ m x = -3 then negCos m (m.rnd (-y - hpr))
  else if sinQ m x = -2 then negCos m (m.rnd (y + hpr))
  else if sinQ m x = -1 then negSin m (-m.rnd y)
  else if sinQ m x = 0 then posSin m (m.rnd y)
  else if sinQ m x = 1 then posCos m (-m.rnd (y - hpo))
  else if sinQ m x = 2 then posCos m (-m.rnd (-y + hpr))
  else if sinQ m x = 3 then posSin m (m.rnd (-y + m.rnd (2 * hpr)))
  else none

/-- The part of `cos_rnd` (371-399) for numbers that are surely between two neighbouring multiples `n` and `n+1` of pi;
`cosY` is the variable `y` (371-378). -/
def cosY (n : ℤ) (x : ℚ) : ℚ :=
  if n % 2 = 0 then m.opp (x - m.rnd (n * m.piRnd)) else m.opp (m.opp ((n + 1) * m.piOpp) - x)

/-- The second part of `cos_rnd` (380-399).  The code behind the return statement (403-418) is never executed. -/
def cosReduced (y : ℚ) : Option ℚ :=
  let q := Int.tmod ⌊m.rnd (y / quarterPi)⌋ 8
  if q = 0 then posCos m y
  else if q = 1 ∨ q = 2 then
    let w := m.rnd (m.piRnd / 2 - y)
    if 0 ≤ w then posSin m w else negSin m (-w)
  else if q = 3 ∨ q = 4 then negCos m (m.opp (m.piOpp - y))
  else none

/-- `cos_rnd` (339-399) -/
def cosRnd (x : ℚ) : Option ℚ :=
  if x = 0 then some 1
  else
    let nr := ⌊m.rnd (x / m.piOpp)⌋
    let no := ⌊m.opp (x / m.piRnd)⌋
    if nr = no then cosReduced m (cosY m nr x)
    else if no < nr then
      if nr % 2 = 0 then some 1
      else
        let y1 := m.rnd (m.rnd (m.piRnd * nr) - x)
        let y2 := m.rnd (x - m.rnd (m.piOpp * nr))
        if 0 ≤ y1 ∧ 0 ≤ y2 then negCos m (max y1 y2) else none
    else
      if nr % 2 = 0 then some (-1)
      else
        let y1 := m.opp (m.rnd (m.piOpp * no) - x)
        let y2 := m.opp (x - m.rnd (m.piRnd * no))
        if 0 ≤ y1 ∧ 0 ≤ y2 then posCos m (max y1 y2) else none

/-! ## Tangent -/

/-- The numerators and denominators of the coefficients of the tangent (522-529) -/
def tanCoeffs : List (ℤ × ℤ) :=
  [(1, 1), (1, 3), (2, 15), (17, 315), (62, 2835), (1382, 155925), (21844, 6081075), (929569, 638512875),
    (6404582, 10854718875), (443861162, 1856156927625), (18888466084, 194896477400625),
    (113927491862, 2900518163668125), (58870668456604, 3698160658676859375)]

/-- The loop (541-544, with `σ = 1`) over the coefficients; the integers are converted to doubles with rounding.  In
the loop for negative numbers (549-552, with `σ = -1`) the last coefficient is taken once more. -/
def tanHorner (σ : ℤ) (s : ℚ) (w : ℚ) : List (ℤ × ℤ) → ℚ
  | [] => w
  | c :: cs => m.rnd (m.rnd (m.rnd (σ * c.1) / m.rnd c.2) + m.rnd (s * tanHorner σ s w cs))

/-- `tan_rnd_series` (516-556) -/
def tanSeries (x : ℚ) : Option ℚ :=
  if -(piUp / 8) ≤ x ∧ x ≤ piUp / 8 then
    if 0 ≤ x then
      let w := m.rnd (m.rnd 58870668456604 / m.rnd 3698160658676859375)
      some (m.rnd (x * tanHorner m 1 (m.rnd (x * x)) w (tanCoeffs.take 12)))
    else
      let w := m.rnd (m.rnd (-58870668456604) / m.rnd 3698160658676859375)
      some (m.rnd (x * -tanHorner m (-1) (-m.rnd (-x * x)) w tanCoeffs))
  else none

/-- The double-angle formula, applied twice (500-512) -/
def tanDouble (y r : ℚ) : ℚ :=
  if 0 ≤ y then
    let u := m.rnd (m.rnd (r * r) - 1)
    let s := m.rnd (m.rnd (2 * r) / -u)
    let v := m.rnd (m.rnd (s * s) - 1)
    m.rnd (m.rnd (2 * s) / -v)
  else
    let u := m.rnd (1 + m.rnd (-r * r))
    let s := m.rnd (m.rnd (2 * r) / u)
    let v := m.rnd (1 + m.rnd (-s * s))
    m.rnd (m.rnd (2 * s) / v)

/-- The variable `y` of `tan_rnd` (484-487) -/
def tanY (x : ℚ) : ℚ :=
  let n := ⌊m.rnd (m.rnd (x / piDown) + 1 / 2)⌋
  m.rnd (x - m.rnd (n * if 0 ≤ n then nextOpp m piDown else nextRnd m piDown))

/-- `tan_rnd` (480-514).  Divisions by zero are not modelled. -/
def tanRnd (x : ℚ) : Option ℚ :=
  let y := tanY m x
  if -(piUp / 2) ≤ y ∧ y ≤ piUp / 2 then (tanSeries m (m.rnd (y / 4))).map (tanDouble m y) else none

/-! ## Inverse functions -/

/-- The coefficients of the arc tangent (562) -/
def atanCoeffs : List ℤ :=
  [1, -3, 5, -7, 9, -11, 13, -15, 17, -19, 21, -23, 25, -27, 29, -31, 33, -35, 37]

/-- `atan_rnd_series` (558-575) -/
def atanSeries (x : ℚ) : Option ℚ :=
  if |x| < 1 / 2 then
    if 0 ≤ x then some (m.rnd (x * hornerRnd m (m.rnd (x * x)) atanCoeffs))
    else some (m.rnd (x * hornerOpp m (m.opp (x * x)) (atanCoeffs.take 18)))
  else none

/-- The constant `c` of `atan_rnd` (604) -/
def atanC : ℚ := 1300077228592327 / 2 ^ 51

/-- The constant `d` of `atan_rnd` (605) -/
def atanD : ℚ := 4826943532748119 / 2 ^ 54

/-- The first reduction of `atan_rnd` (599-600): the argument and the number to be added -/
def atanInvert (x : ℚ) : ℚ × ℚ :=
  if 1 < x then (m.rnd (-1 / x), m.rnd (m.piRnd / 2))
  else if x < -1 then (m.rnd (-1 / x), m.rnd (-m.piOpp / 2))
  else (x, 0)

/-- The second reduction of `atan_rnd` (607-613) -/
def atanShift (x a : ℚ) : ℚ × ℚ :=
  if atanD < x then
    (m.rnd (m.rnd (x - atanC) / -m.rnd (-1 + m.rnd (-atanC * x))), m.rnd (a + m.rnd (m.piRnd / 6)))
  else if x < -atanD then
    (m.rnd (m.rnd (x + atanC) / m.rnd (1 + m.rnd (-atanC * x))), m.rnd (a + m.rnd (-m.piOpp / 6)))
  else (x, a)

/-- `atan_rnd` (577-615) -/
def atanRnd (x : ℚ) : Option ℚ :=
  let p := atanInvert m x
  let q := atanShift m p.1 p.2
  (atanSeries m q.1).map fun s => m.rnd (q.2 + s)

/-- `asin_rnd` (617-636); the square root takes at most `fuel` steps.  Divisions by zero are not modelled. -/
def asinRnd (fuel : ℕ) (x : ℚ) : Option ℚ :=
  if 0 ≤ x then
    (Ariadne.Sqrt.sqrtRnd m.rnd fuel (m.rnd (-1 / m.rnd (m.rnd (x * x) - 1)))).bind fun w => atanRnd m (m.rnd (x * w))
  else
    (Ariadne.Sqrt.sqrtRnd m.rnd fuel (m.rnd (1 + m.rnd (x * -x)))).bind fun w => atanRnd m (m.rnd (x / w))

/-- `acos_rnd` (638-640) -/
def acosRnd (fuel : ℕ) (x : ℚ) : Option ℚ :=
  (asinRnd m fuel (-x)).map fun y => m.rnd (m.rnd (m.piRnd / 2) + y)

end Verif.Elementary
