import Verif.Props.Interpolate
import Verif.Props.Poly
import Mathlib.Analysis.Calculus.Deriv.Polynomial
import Mathlib.Analysis.Calculus.Deriv.Inv
import Mathlib.Analysis.SpecialFunctions.ExpDeriv
import Mathlib.Analysis.SpecialFunctions.Log.Deriv
import Mathlib.Analysis.SpecialFunctions.Pow.Deriv
import Mathlib.Analysis.SpecialFunctions.Trigonometric.DerivHyp

/-!
# C14 (derivatives of interpolates) and C72 (Larson-Miller)
-/

namespace Neml.Interp

open Neml.Math Filter Topology

/-- `d` is the derivative at `x` of a partially defined function: near `x` the
function is defined, and it has derivative `d` there. -/
def HasDeriv (v : ℝ → Option ℝ) (d x : ℝ) : Prop :=
  ∃ f : ℝ → ℝ, (∀ᶠ y in 𝓝 x, v y = some (f y)) ∧ HasDerivAt f d x

theorem hasDeriv_of_interval {v : ℝ → Option ℝ} {f : ℝ → ℝ} {d x a b : ℝ} (h1 : a < x) (h2 : x < b)
    (h : ∀ y, a < y → y < b → v y = some (f y)) (hd : HasDerivAt f d x) : HasDeriv v d x :=
  ⟨f, by filter_upwards [Ioo_mem_nhds h1 h2] with y hy using h y hy.1 hy.2, hd⟩

theorem hasDeriv_of_lt {v : ℝ → Option ℝ} {c x b : ℝ} (h2 : x < b)
    (h : ∀ y, y < b → v y = some c) : HasDeriv v 0 x :=
  ⟨fun _ => c, by filter_upwards [Iio_mem_nhds h2] with y hy using h y hy, hasDerivAt_const _ _⟩

theorem hasDeriv_of_gt {v : ℝ → Option ℝ} {c x b : ℝ} (h2 : b < x)
    (h : ∀ y, b < y → v y = some c) : HasDeriv v 0 x :=
  ⟨fun _ => c, by filter_upwards [Ioi_mem_nhds h2] with y hy using h y hy, hasDerivAt_const _ _⟩

/-- C14, polynomial: for every non-empty coefficient list and every argument. -/
theorem C14_polynomial (coefs : List ℝ) (hc : coefs ≠ []) (x : ℝ) :
    ∃ d, (polynomial coefs).deriv x = some d ∧ HasDeriv (polynomial coefs).value d x := by
  obtain ⟨r, hr, hre⟩ := C50_differentiate coefs hc 1
  have hrn := C50_differentiate_nonempty coefs r hc 1 hr
  refine ⟨(coeffPoly r).eval x, ?_, fun y => (coeffPoly coefs).eval y, ?_, ?_⟩
  · simp [polynomial, hr, C50_polyval r hrn]
  · exact Eventually.of_forall (fun y => C50_polyval coefs hc y)
  · rw [hre]
    exact (coeffPoly coefs).hasDerivAt x

variable {pts vals : List ℝ}

/-- An argument off the knots lies below, above, or strictly inside an interval. -/
theorem off_knots (h : 0 < pts.length) (x : ℝ) (hx : x ∉ pts) :
    x < pts[0] ∨ (pts[0] < x ∧ pts[pts.length - 1] < x) ∨
    ∃ i, ∃ hi : i + 1 < pts.length, pts[i] < x ∧ x < pts[i + 1] := by
  have hne : ∀ i (hi : i < pts.length), x ≠ pts[i] := fun i hi he =>
    hx (he ▸ List.getElem_mem hi)
  rcases regimes h x with h0 | ⟨h0, h1⟩ | ⟨i, hi, h1, h2, _⟩
  · exact Or.inl (lt_of_le_of_ne h0 (hne 0 h))
  · exact Or.inr (Or.inl ⟨h0, lt_of_le_of_ne h1 (hne _ (by omega)).symm⟩)
  · exact Or.inr (Or.inr ⟨i, hi, h1, lt_of_le_of_ne h2 (hne _ hi)⟩)

/-- The shape shared by the three piecewise classes: if, on every interval, `dseg` is the derivative
of `seg`, the table's derivative is the derivative of its value off the knots. -/
theorem table_hasDeriv (hs : pts.Pairwise (· ≤ ·)) (hlen : pts.length = vals.length)
    (hp : 0 < pts.length) {lo hi : ℝ} {seg dseg : ℝ → ℝ → ℝ → ℝ → ℝ → ℝ} {x : ℝ} (hx : x ∉ pts)
    (hseg : ∀ i (hi : i + 1 < pts.length), pts[i] < x → x < pts[i + 1] →
      HasDerivAt (seg pts[i] pts[i + 1] vals[i] vals[i + 1])
        (dseg pts[i] pts[i + 1] vals[i] vals[i + 1] x) x) :
    ∃ d, table pts vals (some 0) (some 0) (fun a b c e => dseg a b c e x) x = some d ∧
      HasDeriv (fun x => table pts vals (some lo) (some hi) (fun a b c e => seg a b c e x) x) d x := by
  rcases off_knots hp x hx with h | ⟨h, h'⟩ | ⟨i, hi', h1, h2⟩
  · exact ⟨0, table_low hp h.le, hasDeriv_of_lt h (fun y hy => table_low hp hy.le)⟩
  · refine ⟨0, table_high hp h h'.le, hasDeriv_of_gt (b := pts[pts.length - 1]) (c := hi) h' ?_⟩
    intro y hy
    exact table_high hp (lt_of_le_of_lt (sorted_le hs (by omega) (by omega)) hy) hy.le
  · have hl : pts[i + 1] ≤ pts[pts.length - 1] := sorted_le hs (by omega) (by omega)
    refine ⟨_, table_mid hs hlen hi' h1 h2.le (lt_of_lt_of_le h2 hl),
      hasDeriv_of_interval h1 h2 ?_ (hseg i hi' h1 h2)⟩
    intro y hy1 hy2
    exact table_mid hs hlen hi' hy1 hy2.le (lt_of_lt_of_le hy2 hl)

theorem head_some {l : List ℝ} (h : 0 < l.length) : l.head? = some l[0] := by
  rw [List.head?_eq_getElem?]; exact List.getElem?_eq_getElem h

theorem last_some {l : List ℝ} (h : 0 < l.length) : l.getLast? = some l[l.length - 1] := by
  rw [List.getLast?_eq_getElem?]; exact List.getElem?_eq_getElem (by omega)

/-- C14, piecewise linear, for every argument that is not a knot. -/
theorem C14_linear (hv : (linear pts vals).valid) (hp : 0 < pts.length) (x : ℝ) (hx : x ∉ pts) :
    ∃ d, (linear pts vals).deriv x = some d ∧ HasDeriv (linear pts vals).value d x := by
  obtain ⟨hs, hlen⟩ := hv
  simp only [linear]
  rw [head_some (l := vals) (by omega), last_some (l := vals) (by omega)]
  apply table_hasDeriv (seg := fun x1 x2 y1 y2 x => (y2 - y1) / (x2 - x1) * (x - x1) + y1)
    (dseg := fun x1 x2 y1 y2 _ => (y2 - y1) / (x2 - x1)) hs hlen hp hx
  intro i hi _ _
  have := (((hasDerivAt_id x).sub_const pts[i]).const_mul
    ((vals[i + 1] - vals[i]) / (pts[i + 1] - pts[i]))).add_const vals[i]
  simpa using this

/-- C14, piecewise log-linear, for every argument that is not a knot. -/
theorem C14_logLinear (hv : (logLinear pts vals).valid) (hp : 0 < pts.length) (x : ℝ)
    (hx : x ∉ pts) :
    ∃ d, (logLinear pts vals).deriv x = some d ∧ HasDeriv (logLinear pts vals).value d x := by
  obtain ⟨hs, hlen, _⟩ := hv
  have hlen' : pts.length = (vals.map Real.log).length := by simpa using hlen
  simp only [logLinear]
  rw [head_some (l := vals.map Real.log) (by omega), last_some (l := vals.map Real.log) (by omega)]
  simp only [Option.map_some]
  apply table_hasDeriv
    (seg := fun x1 x2 y1 y2 x => Real.exp ((y2 - y1) / (x2 - x1) * (x - x1) + y1))
    (dseg := fun x1 x2 y1 y2 x =>
      Real.exp ((y2 - y1) / (x2 - x1) * (x - x1) + y1) * (y2 - y1) / (x2 - x1)) hs hlen' hp hx
  intro i hi _ _
  generalize (vals.map Real.log)[i] = a
  generalize (vals.map Real.log)[i + 1] = b
  have := ((((hasDerivAt_id x).sub_const pts[i]).const_mul
    ((b - a) / (pts[i + 1] - pts[i]))).add_const a).exp
  simp only [id_eq, mul_one] at this
  rw [mul_div_assoc]
  exact this

theorem log10_eq (x : ℝ) : log10 x = Real.log x / Real.log 10 := rfl

theorem hasDerivAt_log10 {x : ℝ} (hx : x ≠ 0) : HasDerivAt log10 (1 / (x * Real.log 10)) x := by
  have := (Real.hasDerivAt_log hx).div_const (Real.log 10)
  have he : x⁻¹ / Real.log 10 = 1 / (x * Real.log 10) := by rw [← one_div, div_div]
  rw [← he]
  exact this

/-- C14, piecewise semi-log, for every argument that is not a knot. -/
theorem C14_semiLogX (hv : (semiLogX pts vals).valid) (hp : 0 < pts.length) (x : ℝ)
    (hx : x ∉ pts) :
    ∃ d, (semiLogX pts vals).deriv x = some d ∧ HasDeriv (semiLogX pts vals).value d x := by
  obtain ⟨hs, hlen, hpos⟩ := hv
  simp only [semiLogX]
  rw [head_some (l := vals) (by omega), last_some (l := vals) (by omega)]
  apply table_hasDeriv
    (seg := fun x1 x2 y1 y2 x =>
      (y2 - y1) / (log10 x2 - log10 x1) * (log10 x - log10 x1) + y1)
    (dseg := fun x1 x2 y1 y2 x => (y2 - y1) / (log10 x2 - log10 x1) / (x * Real.log 10))
    hs hlen hp hx
  intro i hi h1 _
  have h0 := hpos _ (List.getElem_mem (show i < pts.length by omega))
  have hx0 : x ≠ 0 := by intro h; rw [h] at h1; exact h0 h1
  have := (((hasDerivAt_log10 hx0).sub_const (log10 pts[i])).const_mul
    ((vals[i + 1] - vals[i]) / (log10 pts[i + 1] - log10 pts[i]))).add_const vals[i]
  rw [mul_one_div] at this
  exact this

/-- C14, constant. -/
theorem C14_const (v x : ℝ) : ∃ d, (const v).deriv x = some d ∧ HasDeriv (const v).value d x :=
  ⟨0, rfl, fun _ => v, Eventually.of_forall (fun _ => rfl), hasDerivAt_const _ _⟩

/-- C14, exponential `A exp(B/x)`, for every nonzero argument. -/
theorem C14_expo (A B x : ℝ) (hx : x ≠ 0) :
    ∃ d, (expo A B).deriv x = some d ∧ HasDeriv (expo A B).value d x := by
  refine ⟨_, rfl, _, Eventually.of_forall (fun _ => rfl), ?_⟩
  have h1 : HasDerivAt (fun y : ℝ => B / y) (-B / (x * x)) x := by
    have := (hasDerivAt_const x B).div (hasDerivAt_id x) hx
    simp only [id_eq, zero_mul, mul_one, zero_sub, pow_two] at this
    exact this
  have := (h1.exp).const_mul A
  refine this.congr_deriv ?_
  field_simp

/-- C14, power law, for every positive argument. -/
theorem C14_power (A B x : ℝ) (hx : 0 < x) :
    ∃ d, (power A B).deriv x = some d ∧ HasDeriv (power A B).value d x := by
  refine ⟨_, rfl, _, Eventually.of_forall (fun _ => rfl), ?_⟩
  have := (Real.hasDerivAt_rpow_const (p := B) (Or.inl hx.ne')).const_mul A
  refine this.congr_deriv ?_
  ring

/-- C14, MTS shear modulus, for every nonzero argument. -/
theorem C14_mtsShear (V0 D T0 x : ℝ) (hx : x ≠ 0) (hT : T0 ≠ 0) :
    ∃ d, (mtsShear V0 D T0).deriv x = some d ∧ HasDeriv (mtsShear V0 D T0).value d x := by
  refine ⟨_, rfl, _, Eventually.of_forall (fun _ => rfl), ?_⟩
  have h1 : HasDerivAt (fun y : ℝ => T0 / y) (-T0 / (x * x)) x := by
    have := (hasDerivAt_const x T0).div (hasDerivAt_id x) hx
    simp only [id_eq, zero_mul, mul_one, zero_sub, pow_two] at this
    exact this
  have hne : Real.exp (T0 / x) - 1 ≠ 0 := by
    rw [sub_ne_zero]
    intro h
    have := Real.exp_eq_one_iff (T0 / x) |>.1 h
    rcases div_eq_zero_iff.1 this with h | h
    · exact hT h
    · exact hx h
  have h2 := ((hasDerivAt_const x D).div (h1.exp.sub_const 1) hne).const_sub V0
  refine h2.congr_deriv ?_
  have hs : Real.sinh (T0 / (2 * x)) = (Real.exp (T0 / (2 * x)) - (Real.exp (T0 / (2 * x)))⁻¹) / 2 := by
    rw [Real.sinh_eq, Real.exp_neg]
  have he : Real.exp (T0 / x) = Real.exp (T0 / (2 * x)) * Real.exp (T0 / (2 * x)) := by
    rw [← Real.exp_add]; congr 1; field_simp; ring
  have hEp : Real.exp (T0 / (2 * x)) ≠ 0 := (Real.exp_pos _).ne'
  rw [he] at hne ⊢
  rw [hs]
  generalize Real.exp (T0 / (2 * x)) = E at *
  have hne' : E - E⁻¹ ≠ 0 := by
    intro h
    apply hne
    have : E * (E - E⁻¹) = 0 := by rw [h, mul_zero]
    rw [mul_sub, mul_inv_cancel₀ hEp] at this
    exact this
  have hq : E * (E - E⁻¹) = E * E - 1 := by rw [mul_sub, mul_inv_cancel₀ hEp]
  rw [← hq]
  field_simp
  ring

/-- C14, MTS, wherever the two powers have positive bases and the shear modulus has
a (nonzero) value and a derivative. -/
theorem C14_mts (tau0 g0 q p k b : ℝ) (mu : Fn) (x m dm : ℝ)
    (hm : mu.value x = some m) (hdm : mu.deriv x = some dm) (hmu : HasDeriv mu.value dm x)
    (hin : 0 < k * x / (m * b ^ 3 * g0)) (hout : 0 < 1 - (k * x / (m * b ^ 3 * g0)) ^ (1 / q)) :
    ∃ d, (mts tau0 g0 q p k b mu).deriv x = some d ∧
      HasDeriv (mts tau0 g0 q p k b mu).value d x := by
  obtain ⟨f, hf, hfd⟩ := hmu
  have hfx : f x = m := by
    have h1 := hf.self_of_nhds
    rw [hm] at h1
    simpa using h1.symm
  refine ⟨_, by simp [mts, hm, hdm]; rfl,
    fun y => tau0 * (1 - (k * y / (f y * b ^ 3 * g0)) ^ (1 / q)) ^ (1 / p), ?_, ?_⟩
  · filter_upwards [hf] with y hy
    simp [mts, hy]
  have hx : x ≠ 0 := by rintro rfl; simp at hin
  have hk : k ≠ 0 := by rintro rfl; simp at hin
  have hm0 : m ≠ 0 := by rintro rfl; simp at hin
  have hb : b ≠ 0 := by rintro rfl; simp at hin
  have hg : g0 ≠ 0 := by rintro rfl; simp at hin
  have hden : f x * b ^ 3 * g0 ≠ 0 := by
    rw [hfx]; exact mul_ne_zero (mul_ne_zero hm0 (pow_ne_zero _ hb)) hg
  have h1 : HasDerivAt (fun y => k * y / (f y * b ^ 3 * g0))
      ((k * (f x * b ^ 3 * g0) - k * x * (dm * b ^ 3 * g0)) / (f x * b ^ 3 * g0) ^ 2) x := by
    have := ((hasDerivAt_id x).const_mul k).div ((hfd.mul_const (b ^ 3)).mul_const g0) hden
    simp only [id_eq, mul_one] at this
    exact this
  rw [← hfx] at hin hout
  have h2 := (h1.rpow_const (p := 1 / q) (Or.inl hin.ne')).const_sub 1
  have h3 := (h2.rpow_const (p := 1 / p) (Or.inl hout.ne')).const_mul tau0
  refine h3.congr_deriv ?_
  have hsub : (k * x / (f x * b ^ 3 * g0)) ^ (1 / q - 1) =
      (k * x / (f x * b ^ 3 * g0)) ^ (1 / q) / (k * x / (f x * b ^ 3 * g0)) := by
    rw [Real.rpow_sub hin, Real.rpow_one]
  rw [hsub]
  have hcomm : k * x / (b ^ 3 * g0 * m) = k * x / (f x * b ^ 3 * g0) := by
    rw [hfx]; congr 1; ring
  rw [hcomm]
  rw [hfx] at *
  simp only [← one_div]
  generalize (k * x / (m * b ^ 3 * g0)) ^ (1 / q) = I at *
  generalize (1 - I) ^ (1 / p - 1) = J at *
  by_cases hq : q = 0
  · simp [hq]
  by_cases hp : p = 0
  · simp [hp]
  field_simp
  ring

/-- Concrete cases for C14: a cubic, the inside of an interval, a nonzero argument,
and an MTS interpolate with a constant modulus at an argument where both bases are positive. -/
example : (∃ d, (polynomial [1, 0, -2, 5]).deriv 3 = some d ∧
      HasDeriv (polynomial [1, 0, -2, 5]).value d 3) ∧
    (∃ d, (linear [0, 1, 3] [2, 4, 0]).deriv 2 = some d ∧
      HasDeriv (linear [0, 1, 3] [2, 4, 0]).value d 2) ∧
    (∃ d, (mts 10 1 1 2 1 1 (const 4)).deriv 2 = some d ∧
      HasDeriv (mts 10 1 1 2 1 1 (const 4)).value d 2) := by
  refine ⟨C14_polynomial _ (by simp) _, C14_linear (pts := [0, 1, 3])
    (vals := [2, 4, 0]) ⟨by norm_num, rfl⟩ (by simp) 2 (by norm_num), ?_⟩
  obtain ⟨d, hd, hd'⟩ := C14_const 4 2
  exact C14_mts _ _ _ _ _ _ _ _ 4 d rfl hd hd' (by norm_num) (by norm_num)

/-! ## C72: the Larson-Miller relation -/

theorem log10_rpow (y : ℝ) : log10 ((10 : ℝ) ^ y) = y :=
  Real.logb_rpow (by norm_num) (by norm_num)

theorem rpow_log10 {x : ℝ} (hx : 0 < x) : (10 : ℝ) ^ log10 x = x :=
  Real.rpow_logb (by norm_num) (by norm_num) hx

/-- C72. If the solver's residual vanishes at `x`, the rupture time computed from `x`
has exactly the given stress as its rupture stress. -/
theorem C72_time_then_stress (fn : Fn) (C s T x : ℝ) (hs : 0 < s) (hT : T ≠ 0)
    (hx : lmResidual fn s x = some 0) : lmStress fn C (lmTime C T x) T = some s := by
  unfold lmResidual at hx
  obtain ⟨v, hv, h0⟩ := Option.map_eq_some_iff.1 hx
  have : T * (C + log10 (lmTime C T x)) = x := by
    unfold lmTime; rw [log10_rpow]; field_simp; ring
  rw [lmStress, this, hv]
  have hv' : v = log10 s := by linarith
  simp [hv', rpow_log10 hs]

/-- C72. Conversely, for every positive time the parameter `T (C + log10 t)` solves the
residual for the rupture stress of `t`, and gives back `t`. -/
theorem C72_stress_then_time (fn : Fn) (C t T s : ℝ) (ht : 0 < t) (hT : T ≠ 0)
    (h : lmStress fn C t T = some s) :
    ∃ x, lmResidual fn s x = some 0 ∧ lmTime C T x = t := by
  refine ⟨T * (C + log10 t), ?_, ?_⟩
  · unfold lmStress at h
    obtain ⟨v, hv, rfl⟩ := Option.map_eq_some_iff.1 h
    simp [lmResidual, hv, log10_rpow]
  · unfold lmTime
    have : T * (C + log10 t) / T - C = log10 t := by field_simp; ring
    rw [this, rpow_log10 ht]

/-- C72. The solver's Jacobian is the derivative of its residual. -/
theorem C72_jacobian (fn : Fn) (s x d : ℝ) (hd : fn.deriv x = some d) (h : HasDeriv fn.value d x) :
    ∃ j, lmJacobian fn x = some j ∧ HasDeriv (lmResidual fn s) j x := by
  obtain ⟨f, hf, hfd⟩ := h
  refine ⟨-d, by simp [lmJacobian, hd], fun y => log10 s - f y, ?_, hfd.const_sub _⟩
  filter_upwards [hf] with y hy
  simp [lmResidual, hy]

/-- C72. `dtR_ds` is the derivative of the rupture time with respect to stress: for
every continuous choice `X` of the solved parameter near `s`, at which the interpolate
has the nonzero derivative it reports. -/
theorem C72_time_derivative (fn : Fn) (C s T d : ℝ) (X : ℝ → ℝ) (hs : 0 < s)
    (hX : ∀ᶠ s' in 𝓝 s, lmResidual fn s' (X s') = some 0) (hXc : ContinuousAt X s)
    (hd : fn.deriv (X s) = some d) (hder : HasDeriv fn.value d (X s)) (hd0 : d ≠ 0) :
    ∃ t', lmTimeDeriv fn C s T (X s) = some t' ∧
      HasDerivAt (fun s' => lmTime C T (X s')) t' s := by
  refine ⟨_, by simp [lmTimeDeriv, hd]; rfl, ?_⟩
  obtain ⟨f, hf, hfd⟩ := hder
  have hfX : ∀ᶠ s' in 𝓝 s, f (X s') = log10 s' := by
    filter_upwards [hX, hXc.eventually hf] with s' h1 h2
    unfold lmResidual at h1
    rw [h2] at h1
    simp only [Option.map_some, Option.some.injEq] at h1
    linarith
  have h10 : (0 : ℝ) < Real.log 10 := Real.log_pos (by norm_num)
  have hcont : ContinuousAt (fun u : ℝ => (10 : ℝ) ^ u) (log10 s) :=
    (Real.continuous_const_rpow (by norm_num)).continuousAt
  have htend : Tendsto (fun u : ℝ => (10 : ℝ) ^ u) (𝓝 (log10 s)) (𝓝 s) := by
    have := hcont.tendsto
    rwa [rpow_log10 hs] at this
  have hg : HasDerivAt (fun u => X ((10 : ℝ) ^ u)) d⁻¹ (log10 s) := by
    apply HasDerivAt.of_local_left_inverse (f := f) (f' := d) _ _ hd0
    · filter_upwards [htend.eventually hfX] with u hu
      rw [hu, log10_rpow]
    · unfold ContinuousAt
      simp only
      rw [rpow_log10 hs]
      exact hXc.tendsto.comp htend
    · rw [rpow_log10 hs]; exact hfd
  have hXd : HasDerivAt X (d⁻¹ * (1 / (s * Real.log 10))) s := by
    have h1 := hg.comp s (hasDerivAt_log10 hs.ne')
    apply h1.congr_of_eventuallyEq
    filter_upwards [Ioi_mem_nhds hs] with s' hs'
    simp only [Function.comp]
    rw [rpow_log10 hs']
  have h2 := ((hXd.div_const T).sub_const C).const_rpow (a := (10 : ℝ)) (by norm_num)
  refine h2.congr_deriv ?_
  by_cases hT : T = 0
  · simp [hT]
  have hs0 := hs.ne'
  have hl0 := h10.ne'
  field_simp

/-- Concrete case for C72: the line `30 - x` through stress 10 at `x = 29`. -/
example : ∃ t, (lmStress (linear [0, 30] [30, 0]) 20 t 1000 = some 10) ∧ 0 < t := by
  refine ⟨lmTime 20 1000 29, C72_time_then_stress _ 20 10 1000 29 (by norm_num) (by norm_num) ?_, ?_⟩
  · have h := C12_segment (pts := [0, 30]) (vals := [30, 0]) ⟨by norm_num, rfl⟩ (i := 0) (by simp)
      (x := 29) (by norm_num) (by norm_num)
    have hl : log10 10 = 1 := Real.logb_self_eq_one (by norm_num)
    rw [lmResidual, h, hl]
    norm_num [line]
  · unfold lmTime; positivity

/-! ## C73: semi-log interpolation -/

theorem log10_lt {a b : ℝ} (ha : 0 < a) (hab : a < b) : log10 a < log10 b :=
  Real.logb_lt_logb (by norm_num) ha hab

theorem log10_le {a b : ℝ} (ha : 0 < a) (hb : 0 < b) : log10 a ≤ log10 b ↔ a ≤ b :=
  Real.logb_le_logb (by norm_num) ha hb

theorem scan_map_log10 {x : ℝ} (hx : 0 < x) : ∀ (l : List ℝ), (∀ p ∈ l, 0 < p) →
    scan (log10 x) (l.map log10) = scan x l
  | [], _ => rfl
  | p :: l, h => by
    simp only [List.map_cons, scan, log10_le hx (h p (by simp)),
      scan_map_log10 hx l (fun q hq => h q (by simp [hq]))]

/-- C73. With positive points, the value at `x > 0` is the linear interpolation at
`log10 x` of the same values over the logarithms of the points. -/
theorem C73_semilog (hpos : ∀ p ∈ pts, 0 < p) {x : ℝ} (hx : 0 < x) :
    (semiLogX pts vals).value x = (linear (pts.map log10) vals).value (log10 x) := by
  rcases Nat.eq_zero_or_pos pts.length with h | h
  · have : pts = [] := by simpa using h
    subst this
    simp [semiLogX, linear, table]
  simp only [semiLogX, linear]
  rw [table_eq h, table_eq (by simpa using h)]
  simp only [List.getElem_map, List.length_map, scan_map_log10 hx pts hpos,
    log10_le hx (hpos _ (List.getElem_mem h)),
    log10_le (hpos _ (List.getElem_mem (show pts.length - 1 < pts.length by omega))) hx]
  split_ifs
  · rfl
  · rfl
  · generalize scan x pts = k
    cases k with
    | zero => rfl
    | succ k =>
      simp only [segment, List.getElem?_map]
      cases pts[k]? <;> cases pts[k + 1]? <;> cases vals[k]? <;> cases vals[k + 1]? <;> simp

/-- C73. The tabulated values are returned at the knots. -/
theorem C73_knots (hs : pts.Pairwise (· < ·)) (hlen : pts.length = vals.length)
    (hpos : ∀ p ∈ pts, 0 < p) {i : Nat} (hi : i < pts.length) :
    (semiLogX pts vals).value pts[i] = some vals[i] := by
  rw [C73_semilog hpos (hpos _ (List.getElem_mem hi))]
  have h := C12_knots (pts := pts.map log10) (vals := vals) ?_ (by simpa using hlen) (i := i)
    (by simpa using hi)
  · simpa using h
  · rw [List.pairwise_map]
    exact hs.imp_of_mem (fun ha _ hab => log10_lt (hpos _ ha) hab)

/-- C73. Non-decreasing values give a non-decreasing function of positive arguments. -/
theorem C73_monotone (hv : (semiLogX pts vals).valid) (hpos : ∀ p ∈ pts, 0 < p)
    (hm : vals.Pairwise (· ≤ ·)) {x y u v : ℝ} (h0 : 0 < x) (hxy : x ≤ y)
    (hx : (semiLogX pts vals).value x = some u)
    (hy : (semiLogX pts vals).value y = some v) : u ≤ v := by
  rw [C73_semilog hpos h0] at hx
  rw [C73_semilog hpos (by linarith)] at hy
  refine C13_monotone ⟨?_, by simpa using hv.2.1⟩ hm ((log10_le h0 (by linarith)).2 hxy) hx hy
  rw [List.pairwise_map]
  exact hv.1.imp_of_mem (fun ha hb hab => (log10_le (hpos _ ha) (hpos _ hb)).2 hab)

/-- C73. The validity check accepts a first point at zero, where the formula needs the
logarithm of zero. -/
theorem C73_zero_point_valid : (semiLogX [0, 1] [2, 3]).valid := ⟨by norm_num, rfl, by norm_num⟩

/-- Concrete case for C73: halfway between 1 and 100 on the log scale is 10. -/
example : (semiLogX [1, 100] [2, 6]).value 10 = some 4 := by
  rw [C73_semilog (by norm_num) (by norm_num)]
  have h1 : log10 10 = 1 := Real.logb_self_eq_one (by norm_num)
  have h2 : log10 100 = 2 := by
    have := log10_rpow 2
    norm_num at this
    exact this
  have h0 : log10 1 = 0 := Real.logb_one
  have := C12_segment (pts := [1, 100].map log10) (vals := [2, 6])
    ⟨by simp only [List.map_cons, List.map_nil, h0, h2]; norm_num, rfl⟩ (i := 0) (by simp) (x := log10 10)
    (by simp only [List.map_cons, List.getElem_cons_zero, h0, h1]; norm_num)
    (by simp only [List.map_cons, List.getElem_cons_zero, List.getElem_cons_succ, h1, h2]; norm_num)
  rw [this]
  simp only [List.map_cons, List.getElem_cons_zero, List.getElem_cons_succ, h0, h1, h2, line]
  norm_num

end Neml.Interp
