import Verif.Model.Mandel
import Mathlib.Analysis.SpecialFunctions.Complex.Arg
import Mathlib.Analysis.SpecialFunctions.Trigonometric.Inverse
import Mathlib.Analysis.SpecialFunctions.Log.Basic

/-!
# Model of src/math/rotations.cxx

Quaternions are four real numbers, rotation matrices 3 by 3 real matrices. Angles are exact reals,
`M_PI` is `π`. Divisions whose denominator the code does not guard are kept as divisions; where the
denominator can vanish for a legal input the function returns `none`, standing for the NaN the code
produces. The stored-or-view memory handling of the class (lines 16-90) is not modelled here.
-/

namespace Neml.Rotation

open Matrix Neml.Mandel Real

/-- Four numbers `quat_[0..3]` (rotations.h `Quaternion`). -/
@[ext] structure Quat where
  /-- `quat_[0]` -/
  s : ℝ
  /-- `quat_[1]` -/
  x : ℝ
  /-- `quat_[2]` -/
  y : ℝ
  /-- `quat_[3]` -/
  z : ℝ

/-- rotations.cxx:15-22 and 561-565: what the default constructors `Quaternion()` and
`Orientation()` store. -/
def defaultQuat : Quat := ⟨0, 0, 0, 1⟩

/-- rotations.cxx:192-199 `Quaternion::dot`. -/
def qdot (p q : Quat) : ℝ := p.s * q.s + p.x * q.x + p.y * q.y + p.z * q.z

/-- rotations.cxx:99-107 `Quaternion::norm`. -/
noncomputable def qnorm (q : Quat) : ℝ := √(q.s * q.s + q.x * q.x + q.y * q.y + q.z * q.z)

/-- rotations.cxx:270-276 `opposite_`. -/
def opposite (q : Quat) : Quat := ⟨-q.s, -q.x, -q.y, -q.z⟩

/-- rotations.cxx:278-284 `conj_`; also 751-757 `Orientation::inverse`. -/
def conj (q : Quat) : Quat := ⟨q.s, -q.x, -q.y, -q.z⟩

/-- rotations.cxx:286-292 `flip_`. -/
def flip (q : Quat) : Quat := ⟨-q.s, q.x, q.y, q.z⟩

/-- rotations.cxx:294-302 `inverse_` (the plain quaternion one). -/
noncomputable def inverse (q : Quat) : Quat :=
  let ns := qnorm q * qnorm q
  ⟨q.s / ns, -q.x / ns, -q.y / ns, -q.z / ns⟩

/-- rotations.cxx:337-345 `multiply_`. -/
def qmul (q b : Quat) : Quat :=
  ⟨q.s * b.s - (q.x * b.x + q.y * b.y + q.z * b.z),
   q.s * b.x + q.x * b.s + q.y * b.z - q.z * b.y,
   q.s * b.y + q.y * b.s + q.z * b.x - q.x * b.z,
   q.s * b.z + q.z * b.s + q.x * b.y - q.y * b.x⟩

/-- rotations.cxx:347-352 `smultiply_`. -/
def qsmul (c : ℝ) (q : Quat) : Quat := ⟨q.s * c, q.x * c, q.y * c, q.z * c⟩

/-- rotations.cxx:213-234 `to_product_matrix`. -/
def productMatrix (q : Quat) : Matrix (Fin 4) (Fin 4) ℝ :=
  !![q.s, -q.x, -q.y, -q.z; q.x, q.s, -q.z, q.y; q.y, q.z, q.s, -q.x; q.z, -q.y, q.x, q.s]

/-- The four numbers as a vector. -/
def toVec (q : Quat) : Fin 4 → ℝ := ![q.s, q.x, q.y, q.z]

/-- rotations.cxx:304-318 `exp_`; `none` for the 0/0 of an exactly real argument. -/
noncomputable def qexp (q : Quat) : Option Quat :=
  let nv := √(q.x * q.x + q.y * q.y + q.z * q.z)
  if nv = 0 then none
  else some ⟨cos nv, q.x * (sin nv / nv), q.y * (sin nv / nv), q.z * (sin nv / nv)⟩

/-- rotations.cxx:320-335 `log_`; `none` for the 0/0 of an exactly real argument. -/
noncomputable def qlog (q : Quat) : Option Quat :=
  let n := qnorm q
  let nv := √(q.x * q.x + q.y * q.y + q.z * q.z)
  if nv = 0 then none
  else
    let sf := arccos (q.s / n)
    some ⟨log n, q.x / nv * sf, q.y / nv * sf, q.z / nv * sf⟩

/-- rotations.cxx:777-791 `normalize_`. -/
noncomputable def normalize (q : Quat) : Quat :=
  if qnorm q = 0 then ⟨0, 0, 0, 1⟩
  else ⟨q.s / qnorm q, q.x / qnorm q, q.y / qnorm q, q.z / qnorm q⟩

/-- rotations.cxx:187-190 `Quaternion::pow`. -/
noncomputable def qpow (q : Quat) (w : ℝ) : Option Quat := (qlog q).bind fun l => qexp (qsmul w l)

/-- rotations.cxx:772-775 `Orientation::pow`. -/
noncomputable def opow (q : Quat) (w : ℝ) : Option Quat := (qpow q w).map normalize

/-! ## Parametrizations -/

/-- nemlmath.cxx:1053-1064 `convert_angle`; `none` is the exception. -/
noncomputable def convertAngle (u : String) (a : ℝ) : Option ℝ :=
  if u = "radians" then some a else if u = "degrees" then some (a / 360 * 2 * π) else none

/-- nemlmath.cxx:1066-1077 `cast_angle`. -/
noncomputable def castAngle (u : String) (a : ℝ) : Option ℝ :=
  if u = "radians" then some a else if u = "degrees" then some (a / (2 * π) * 360) else none

/-- rotations.cxx:380-393 `setRodrigues`. -/
noncomputable def setRodrigues (r : Fin 3 → ℝ) : Quat :=
  let f := 1 / √(1 + (r 0 * r 0 + r 1 * r 1 + r 2 * r 2))
  ⟨f, r 0 * f, r 1 * f, r 2 * f⟩

/-- rotations.cxx:402-443 `setMatrix`. -/
noncomputable def setMatrix (M : Matrix (Fin 3) (Fin 3) ℝ) : Quat :=
  let tr := M 0 0 + M 1 1 + M 2 2
  if tr > 0 then
    let S := √(1 + tr) * 2
    ⟨0.25 * S, (M 2 1 - M 1 2) / S, (M 0 2 - M 2 0) / S, (M 1 0 - M 0 1) / S⟩
  else if M 0 0 > M 1 1 ∧ M 0 0 > M 2 2 then
    let S := √(1 + M 0 0 - M 1 1 - M 2 2) * 2
    ⟨(M 2 1 - M 1 2) / S, 0.25 * S, (M 0 1 + M 1 0) / S, (M 0 2 + M 2 0) / S⟩
  else if M 1 1 > M 2 2 then
    let S := √(1 + M 1 1 - M 0 0 - M 2 2) * 2
    ⟨(M 0 2 - M 2 0) / S, (M 0 1 + M 1 0) / S, 0.25 * S, (M 1 2 + M 2 1) / S⟩
  else
    let S := √(1 + M 2 2 - M 0 0 - M 1 1) * 2
    ⟨(M 1 0 - M 0 1) / S, (M 0 2 + M 2 0) / S, (M 1 2 + M 2 1) / S, 0.25 * S⟩

/-- rotations.cxx:453-463 `setAxisAngle`, angle in radians. -/
noncomputable def setAxisAngle (n : Fin 3 → ℝ) (a : ℝ) : Quat :=
  ⟨cos (a / 2), sin (a / 2) * n 0, sin (a / 2) * n 1, sin (a / 2) * n 2⟩

/-- rotations.cxx:499-510 `setHopf`, angles in radians. -/
noncomputable def setHopf (alpha beta gamma : ℝ) : Quat :=
  ⟨cos (beta / 2) * cos (gamma / 2), cos (beta / 2) * sin (gamma / 2),
   sin (beta / 2) * cos (alpha + gamma / 2), sin (beta / 2) * sin (alpha + gamma / 2)⟩

/-- rotations.cxx:520-531 `setHyperspherical`, angles in radians. -/
noncomputable def setHyperspherical (a1 a2 a3 : ℝ) : Quat :=
  ⟨cos a1, sin a1 * cos a2, sin a1 * sin a2 * cos a3, sin a1 * sin a2 * sin a3⟩

/-- tensors.cxx:224-235 `Vector::cross`. -/
def cross (a b : Fin 3 → ℝ) : Fin 3 → ℝ :=
  ![a 1 * b 2 - a 2 * b 1, a 2 * b 0 - a 0 * b 2, a 0 * b 1 - a 1 * b 0]

/-- rotations.cxx:540-558 `setVectors`; `none` is the exception. -/
noncomputable def setVectors (x y : Fin 3 → ℝ) : Option Quat :=
  if |x ⬝ᵥ y| > 1e-16 then none
  else
    let z := cross x y
    some (setMatrix !![x 0, y 0, z 0; x 1, y 1, z 1; x 2, y 2, z 2])

/-- rotations.cxx:641-656 `to_matrix`. -/
def toMatrix (q : Quat) : Matrix (Fin 3) (Fin 3) ℝ :=
  !![1 - 2 * (q.y * q.y) - 2 * (q.z * q.z), 2 * (q.x * q.y - q.z * q.s), 2 * (q.x * q.z + q.y * q.s);
     2 * (q.x * q.y + q.z * q.s), 1 - 2 * (q.x * q.x) - 2 * (q.z * q.z), 2 * (q.y * q.z - q.x * q.s);
     2 * (q.x * q.z - q.y * q.s), 2 * (q.y * q.z + q.x * q.s), 1 - 2 * (q.x * q.x) - 2 * (q.y * q.y)]

/-- rotations.cxx:620-639 `to_axis_angle` in radians. -/
noncomputable def toAxisAngle (q : Quat) : (Fin 3 → ℝ) × ℝ :=
  let f := max (-1) (min q.s 1)
  let a := 2 * arccos f
  let s := sin (a / 2)
  (if a < 1e-16 then ![1, 0, 0] else ![q.x / s, q.y / s, q.z / s], a)

/-- rotations.cxx:665-678 `to_rodrigues`. -/
noncomputable def toRodrigues (q : Quat) : Fin 3 → ℝ :=
  let f := if q.s = 0 then 1e-16 else q.s
  ![q.x / f, q.y / f, q.z / f]

/-- The C library `atan2(y, x)`. -/
noncomputable def atan2 (y x : ℝ) : ℝ := Complex.arg ⟨x, y⟩

/-- rotations.cxx:682-697 `to_hopf` in radians: alpha, beta, gamma. -/
noncomputable def toHopf (q : Quat) : ℝ × ℝ × ℝ :=
  let gamma := 2 * atan2 q.x q.s
  (atan2 q.z q.y - gamma / 2, 2 * arcsin (√(q.y * q.y + q.z * q.z)), gamma)

/-- rotations.cxx:700-720 `to_hyperspherical` in radians; `none` for the 0/0 cases. -/
noncomputable def toHyperspherical (q : Quat) : Option (ℝ × ℝ × ℝ) :=
  let r1 := √(q.z * q.z + q.y * q.y + q.x * q.x + q.s * q.s)
  let r2 := √(q.z * q.z + q.y * q.y + q.x * q.x)
  let r3 := √(q.z * q.z + q.y * q.y)
  if r1 = 0 ∨ r2 = 0 ∨ r3 = 0 then none
  else some (arccos (q.s / r1), arccos (q.x / r2),
    if q.z ≥ 0 then arccos (q.y / r3) else -arccos (q.y / r3))

/-- The C library `fmod(x, y)` for a positive divisor: the remainder has the sign of `x`. -/
noncomputable def fmod (x y : ℝ) : ℝ :=
  if 0 ≤ x then x - y * (⌊x / y⌋ : ℤ) else x - y * (⌈x / y⌉ : ℤ)

/-- rotations.cxx:793-814 `to_kocks_`. -/
noncomputable def toKocks (conv : String) (a b c : ℝ) : Option (ℝ × ℝ × ℝ) :=
  if conv = "kocks" then some (a, b, c)
  else if conv = "bunge" then
    some (fmod (a - π / 2) (2 * π), fmod b π, fmod (π / 2 - c) (2 * π))
  else if conv = "roe" then some (a, b, π - c)
  else none

/-- rotations.cxx:816-837 `from_kocks_`. -/
noncomputable def fromKocks (conv : String) (a b c : ℝ) : Option (ℝ × ℝ × ℝ) :=
  if conv = "kocks" then some (a, b, c)
  else if conv = "bunge" then
    some (fmod (a + π / 2) (2 * π), fmod b π, fmod (π / 2 - c) (2 * π))
  else if conv = "roe" then some (a, b, π - c)
  else none

/-- rotations.cxx:839-851 `kocks_to_matrix_`. -/
noncomputable def kocksMatrix (a b c : ℝ) : Matrix (Fin 3) (Fin 3) ℝ :=
  !![-sin c * sin a - cos c * cos a * cos b, sin c * cos a - cos c * sin a * cos b, cos c * sin b;
     cos c * sin a - sin c * cos a * cos b, -cos c * cos a - sin c * sin a * cos b, sin c * sin b;
     cos a * sin b, sin a * sin b, cos b]

/-- rotations.cxx:474-488 `setEulerAngles`; `none` for the exceptions. -/
noncomputable def setEuler (u conv : String) (a b c : ℝ) : Option Quat := do
  let a ← convertAngle u a
  let b ← convertAngle u b
  let c ← convertAngle u c
  let (na, nb, nc) ← toKocks conv a b c
  return setMatrix (kocksMatrix na nb nc)

/-- The three Kocks angles computed in rotations.cxx:597-611, part of `to_euler`. -/
noncomputable def readKocks (q : Quat) : ℝ × ℝ × ℝ :=
  let M := toMatrix q
  if |(|M 2 2| - 1)| < 1e-15 then
    let sa := atan2 (M 0 1) (M 0 0) / 2 - π / 2
    (sa, 0, -sa)
  else
    let sb := arccos (M 2 2)
    let s := sin sb
    (π / 2 - atan2 (M 2 0 / s) (M 2 1 / s), sb, π / 2 - atan2 (M 0 2 / s) (M 1 2 / s))

/-- rotations.cxx:594-618 `to_euler`. -/
noncomputable def toEuler (u conv : String) (q : Quat) : Option (ℝ × ℝ × ℝ) := do
  let (sa, sb, sc) := readKocks q
  let (na, nb, nc) ← fromKocks conv sa sb sc
  let a ← castAngle u na
  let b ← castAngle u nb
  let c ← castAngle u nc
  return (a, b, c)

/-- rotations.cxx:1120-1128 `make_crystal_orientation`: Euler angles in the default unit and
convention, then the constructor at 1082-1089. -/
noncomputable def makeCrystalOrientation (q : Quat) : Option Quat :=
  (toEuler "radians" "kocks" q).bind fun e => setEuler "radians" "kocks" e.1 e.2.1 e.2.2

/-- rotations.cxx:986-991 and 1014-1019: the four numbers built from three draws `u` in the random
orientation generators. -/
noncomputable def randomQuat (u : Fin 3 → ℝ) : Quat :=
  ⟨√(1 - u 0) * sin (2 * π * u 1), √(1 - u 0) * cos (2 * π * u 1),
   √(u 0) * sin (2 * π * u 2), √(u 0) * cos (2 * π * u 2)⟩

/-! ## Acting on tensors -/

/-- rotations.cxx:867-884 `apply(Vector)`. -/
def applyVec (q : Quat) (a : Fin 3 → ℝ) : Fin 3 → ℝ :=
  let r := qmul (qmul q ⟨0, a 0, a 1, a 2⟩) (conj q)
  ![r.x, r.y, r.z]

/-- rotations.cxx:886-890 `apply(RankTwo)`. -/
def applyR2 (q : Quat) (a : Matrix (Fin 3) (Fin 3) ℝ) : Matrix (Fin 3) (Fin 3) ℝ :=
  toMatrix q * (a * (toMatrix q)ᵀ)

/-- tensors.cxx:646-656 `Symmetric(RankTwo)`. -/
noncomputable def symOfFull (a : Matrix (Fin 3) (Fin 3) ℝ) : Fin 6 → ℝ :=
  let s : Matrix (Fin 3) (Fin 3) ℝ := (0.5 : ℝ) • (a + aᵀ)
  ![s 0 0, s 1 1, s 2 2, s 1 2 * √2, s 0 2 * √2, s 0 1 * √2]

/-- rotations.cxx:892-908 `apply(Symmetric)`. The six polynomials the function writes first are
discarded by its return statement and not modelled. -/
noncomputable def applySym (q : Quat) (a : Fin 6 → ℝ) : Fin 6 → ℝ := symOfFull (applyR2 q (usym a))

/-- rotations.cxx:910-922 `apply(Skew)`, the three polynomials as written. -/
def applySkew (q : Quat) (w : Fin 3 → ℝ) : Fin 3 → ℝ :=
  ![-((1 - 2 * q.y ^ 2 - 2 * q.z ^ 2 + 4 * q.x ^ 2 * (-1 + q.s ^ 2 + q.x ^ 2 + q.y ^ 2 + q.z ^ 2)) * (-w
      0) + 2 * q.s * (q.z * w 1 + q.y * (-w 2)) - 2 * q.x * (-1 + 2 * q.s ^ 2 + 2 * q.y ^ 2 + 2 *
      q.z ^ 2) * (q.y * w 1 - q.z * (-w 2)) + q.x ^ 3 * (-4 * q.y * w 1 + 4 * q.z * (-w 2))),
    (-4 * (q.s * q.y + q.x * q.z) * (q.s * q.x * (-w 0) + q.y * q.z * (-w 0) - q.s * q.y * w 1 + q.x *
      q.z * w 1) - 2 * (q.x * q.y - q.s * q.z) * ((-1 + 2 * q.x ^ 2 + 2 * q.y ^ 2) * (-w 0) - 2 *
      q.s * q.y * (-w 2) + 2 * q.x * q.z * (-w 2)) + (1 - 2 * q.y ^ 2 - 2 * q.z ^ 2) * (w 1 - 2 *
      q.x ^ 2 * w 1 - 2 * q.y ^ 2 * w 1 + 2 * q.s * q.x * (-w 2) + 2 * q.y * q.z * (-w 2))),
    -(-2 * q.s * (q.y * (-w 0) + q.x * w 1) + 4 * q.s ^ 2 * q.z * (q.x * (-w 0) - q.y * w 1 + q.z * (-w
      2)) + (-1 + 2 * q.x ^ 2 + 2 * q.y ^ 2 + 2 * q.z ^ 2) * (w 2 + 2 * q.z * (q.x * (-w 0) - q.y *
      w 1 + q.z * (-w 2))))]

/-- rotations.cxx:924-947 `apply(RankFour)`. -/
def applyR4 (q : Quat) (a : Fin 3 → Fin 3 → Fin 3 → Fin 3 → ℝ) : Fin 3 → Fin 3 → Fin 3 → Fin 3 → ℝ :=
  fun i j k l => ∑ m, ∑ n, ∑ o, ∑ p,
    toMatrix q i m * toMatrix q j n * toMatrix q k o * toMatrix q l p * a m n o p

/-- rotations.cxx:956-959: the 6 by 6 matrix `R` built from the entries of a 3 by 3 matrix. -/
noncomputable def mandelRot (M : Matrix (Fin 3) (Fin 3) ℝ) : Matrix (Fin 6) (Fin 6) ℝ :=
  !![M 0 0 * M 0 0, M 0 1 * M 0 1, M 0 2 * M 0 2, √2 * M 0 1 * M 0 2, √2 * M 0 2 * M 0 0, √2 * M 0 0 * M
       0 1;
     M 1 0 * M 1 0, M 1 1 * M 1 1, M 1 2 * M 1 2, √2 * M 1 1 * M 1 2, √2 * M 1 2 * M 1 0, √2 * M 1 0 * M
       1 1;
     M 2 0 * M 2 0, M 2 1 * M 2 1, M 2 2 * M 2 2, √2 * M 2 1 * M 2 2, √2 * M 2 2 * M 2 0, √2 * M 2 0 * M
       2 1;
     √2 * M 1 0 * M 2 0, √2 * M 1 1 * M 2 1, √2 * M 1 2 * M 2 2, M 1 1 * M 2 2 + M 1 2 * M 2 1, M 1 2 * M
       2 0 + M 1 0 * M 2 2, M 1 0 * M 2 1 + M 1 1 * M 2 0;
     √2 * M 2 0 * M 0 0, √2 * M 2 1 * M 0 1, √2 * M 2 2 * M 0 2, M 2 1 * M 0 2 + M 2 2 * M 0 1, M 2 2 * M
       0 0 + M 2 0 * M 0 2, M 2 0 * M 0 1 + M 2 1 * M 0 0;
     √2 * M 0 0 * M 1 0, √2 * M 0 1 * M 1 1, √2 * M 0 2 * M 1 2, M 0 1 * M 1 2 + M 0 2 * M 1 1, M 0 2 * M
       1 0 + M 0 0 * M 1 2, M 0 0 * M 1 1 + M 0 1 * M 1 0]

/-- rotations.cxx:949-964 `apply(SymSymR4)`, with nemlmath.cxx:1111-1125 `rotate_matrix`
(`A B Aᵀ`, the two BLAS calls taken as exact matrix products). -/
noncomputable def applySymSym (q : Quat) (a : Matrix (Fin 6) (Fin 6) ℝ) : Matrix (Fin 6) (Fin 6) ℝ :=
  mandelRot (toMatrix q) * a * (mandelRot (toMatrix q))ᵀ

/-- rotations.cxx:966-971 `distance`. -/
noncomputable def distance (p q : Quat) : ℝ :=
  let d := |qdot p q|
  arccos (if d > 1 then 1 else d)

/-! ## Spins and rotations between directions -/

/-- nemlmath `norm2_vec` on three numbers, also tensors.cxx:219-222 `Vector::norm`. -/
noncomputable def norm3 (v : Fin 3 → ℝ) : ℝ := √(v 0 * v 0 + v 1 * v 1 + v 2 * v 2)

/-- rotations.cxx:1027-1036 `wexp`. -/
noncomputable def wexp (w : Fin 3 → ℝ) : Quat :=
  let x := norm3 w
  if x = 0 then defaultQuat
  else
    let f := sin (x / 2) / x
    normalize ⟨cos (x / 2), f * w 0, f * w 1, f * w 2⟩

/-- rotations.cxx:1038-1048 `wlog`; `none` for the 0/0 (or 2π/0) of a real quaternion. -/
noncomputable def wlog (q : Quat) : Option (Fin 3 → ℝ) :=
  let n := norm3 ![q.x, q.y, q.z]
  if n = 0 then none
  else some ((2 * arccos (q.s / qnorm q) / n) • ![q.x, q.y, q.z])

/-- singlecrystal.cxx:685-691 `update_rot_`, with the spin already evaluated. -/
noncomputable def updateRot (spin : Fin 3 → ℝ) (dt : ℝ) (q : Quat) : Quat :=
  qmul (wexp (dt • spin)) q

/-- rotations.cxx:1055-1069 `rotate_to`; `none` for the 0/0 of a zero vector or of parallel ones. -/
noncomputable def rotateTo (a b : Fin 3 → ℝ) : Option Quat :=
  if norm3 a = 0 ∨ norm3 b = 0 then none
  else
    let aa := fun i => a i / norm3 a
    let bb := fun i => b i / norm3 b
    let ax := cross aa bb
    if norm3 ax = 0 then none
    else some (setAxisAngle (fun i => ax i / norm3 ax) (arccos (aa ⬝ᵥ bb)))

/-- rotations.cxx:1071-1078 `rotate_to_family`. -/
noncomputable def rotateToFamily (a b : Fin 3 → ℝ) (ang : ℝ) : Option Quat :=
  (rotateTo a b).map fun base => qmul (setAxisAngle b ang) base

end Neml.Rotation
