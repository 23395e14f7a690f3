import Verif.Model.PoleFigures
import Verif.Props.RotationAngles
import Mathlib.Analysis.Calculus.Deriv.Prod
import Mathlib.Analysis.SpecialFunctions.Sqrt

/-!
# C154: the projections of the sphere and their inverses
-/

namespace Neml.PoleFigures

open Neml.Rotation Neml.Lattice Matrix

/-- Length one. -/
def OnSphere (v : Vec) : Prop := v 0 ^ 2 + v 1 ^ 2 + v 2 ^ 2 = 1

/-- The distance from the centre of the figure, squared. -/
def radius2 (p : Fin 2 → ℝ) : ℝ := p 0 ^ 2 + p 1 ^ 2

theorem vec3 {u v : Vec} (h0 : u 0 = v 0) (h1 : u 1 = v 1) (h2 : u 2 = v 2) : u = v := by
  ext i
  fin_cases i
  exacts [h0, h1, h2]

theorem vec2 {u v : Fin 2 → ℝ} (h0 : u 0 = v 0) (h1 : u 1 = v 1) : u = v := by
  ext i
  fin_cases i
  exacts [h0, h1]

theorem height {v : Vec} (h : OnSphere v) (hs : v 2 ≠ -1) : 0 < 1 + v 2 := by
  have h0 : -1 ≤ v 2 := by
    unfold OnSphere at h
    nlinarith [sq_nonneg (v 0), sq_nonneg (v 1)]
  rcases lt_or_eq_of_le h0 with h1 | h1
  · linarith
  · exact absurd h1.symm hs

theorem stereo_radius {v : Vec} (h : OnSphere v) (hs : v 2 ≠ -1) : radius2 (stereo v) = (1 - v 2) / (1 + v 2) := by
  have h1 := height h hs
  unfold OnSphere at h
  simp only [radius2, stereo, cons_val_zero, cons_val_one]
  field_simp
  linear_combination h

theorem lambert_radius {v : Vec} (h : OnSphere v) (hs : v 2 ≠ -1) : radius2 (lambert v) = 2 * (1 - v 2) := by
  have h1 := height h hs
  have h2 : √(2 / (1 + v 2)) ^ 2 = 2 / (1 + v 2) := Real.sq_sqrt (by positivity)
  unfold OnSphere at h
  simp only [radius2, lambert, cons_val_zero, cons_val_one, mul_pow, h2]
  field_simp
  linear_combination h

theorem stereo_inj {u v : Vec} (hu : OnSphere u) (hv : OnSphere v) (us : u 2 ≠ -1) (vs : v 2 ≠ -1)
    (h : stereo u = stereo v) : u = v := by
  have h1 := height hu us
  have h2 := height hv vs
  have h3 : radius2 (stereo u) = radius2 (stereo v) := by rw [h]
  rw [stereo_radius hu us, stereo_radius hv vs, div_eq_div_iff h1.ne' h2.ne'] at h3
  have h4 : u 2 = v 2 := by linarith
  have a0 := congrFun h 0
  have a1 := congrFun h 1
  simp only [stereo, cons_val_zero, cons_val_one, h4] at a0 a1
  exact vec3 (by field_simp at a0; exact a0) (by field_simp at a1; exact a1) h4

theorem lambert_inj {u v : Vec} (hu : OnSphere u) (hv : OnSphere v) (us : u 2 ≠ -1) (vs : v 2 ≠ -1)
    (h : lambert u = lambert v) : u = v := by
  have h2 := height hv vs
  have h3 : radius2 (lambert u) = radius2 (lambert v) := by rw [h]
  rw [lambert_radius hu us, lambert_radius hv vs] at h3
  have h4 : u 2 = v 2 := by linarith
  have a0 := congrFun h 0
  have a1 := congrFun h 1
  have h5 : √(2 / (1 + v 2)) ≠ 0 := (Real.sqrt_pos.mpr (by positivity)).ne'
  simp only [lambert, cons_val_zero, cons_val_one, h4] at a0 a1
  exact vec3 (mul_left_cancel₀ h5 a0) (mul_left_cancel₀ h5 a1) h4

/-- Away from the south pole both projections carry different directions to different points, and a point lies inside
the circle drawn as the limit of the figure exactly when its direction is in the upper half of the sphere. -/
theorem C154_disc {v : Vec} (h : OnSphere v) (hs : v 2 ≠ -1) :
    (radius2 (stereo v) ≤ 1 ^ 2 ↔ 0 ≤ v 2) ∧ (radius2 (lambert v) ≤ √2 ^ 2 ↔ 0 ≤ v 2) ∧
      (∀ u, OnSphere u → u 2 ≠ -1 → stereo u = stereo v → u = v) ∧
      (∀ u, OnSphere u → u 2 ≠ -1 → lambert u = lambert v → u = v) := by
  have h1 := height h hs
  refine ⟨?_, ?_, fun u hu us => stereo_inj hu h us hs, fun u hu us => lambert_inj hu h us hs⟩
  · rw [stereo_radius h hs, div_le_iff₀ h1]
    constructor <;> intro _ <;> linarith
  · rw [lambert_radius h hs, Real.sq_sqrt (by norm_num)]
    constructor <;> intro _ <;> linarith

/-- The direction (2/3, 1/3, 2/3). -/
example : OnSphere ![2 / 3, 1 / 3, 2 / 3] ∧ (![2 / 3, 1 / 3, 2 / 3] : Vec) 2 ≠ -1 := by
  constructor
  · simp only [OnSphere, cons_val_zero, cons_val_one, cons_val]; norm_num
  · simp only [cons_val]; norm_num

/-- The mirror image in the plane of the figure. -/
def mirror (v : Vec) : Vec := ![v 0, v 1, -v 2]

theorem stereoInv_stereo {v : Vec} (h : OnSphere v) (hs : v 2 ≠ -1) : stereoInv (stereo v) = mirror v := by
  have h1 := height h hs
  have h2 := stereo_radius h hs
  have h3 : 1 + stereo v 0 ^ 2 + stereo v 1 ^ 2 = 2 / (1 + v 2) := by
    rw [add_assoc, show stereo v 0 ^ 2 + stereo v 1 ^ 2 = radius2 (stereo v) from rfl, h2]
    field_simp; ring
  have h4 : stereo v 0 ^ 2 + stereo v 1 ^ 2 - 1 = -(v 2) * (2 / (1 + v 2)) := by
    rw [show stereo v 0 ^ 2 + stereo v 1 ^ 2 = radius2 (stereo v) from rfl, h2]
    field_simp; ring
  unfold stereoInv
  dsimp only
  rw [h3, h4]
  refine vec3 ?_ ?_ ?_ <;> simp only [mirror, stereo, cons_val_zero, cons_val_one, cons_val] <;> field_simp

theorem lambertInv_lambert {v : Vec} (h : OnSphere v) (hs : v 2 ≠ -1) : lambertInv (lambert v) = mirror v := by
  have h1 := height h hs
  have h2 := lambert_radius h hs
  have h3 : lambert v 0 ^ 2 + lambert v 1 ^ 2 = 2 * (1 - v 2) := h2
  unfold lambertInv
  dsimp only
  rw [h3, show 1 - 2 * (1 - v 2) / 4 = (1 + v 2) / 2 by ring]
  have h4 : √((1 + v 2) / 2) * √(2 / (1 + v 2)) = 1 := by
    rw [← Real.sqrt_mul (by positivity), show (1 + v 2) / 2 * (2 / (1 + v 2)) = 1 by field_simp, Real.sqrt_one]
  refine vec3 ?_ ?_ ?_ <;> simp only [mirror, lambert, cons_val_zero, cons_val_one, cons_val]
  · linear_combination v 0 * h4
  · linear_combination v 1 * h4
  · ring

/-- The inverse projections belong to the projections from the other pole: each returns the mirror image of the
direction that was projected. Only directions on the rim of the figure come back. -/
theorem C154_inverse_disagreement {v : Vec} (h : OnSphere v) (hs : v 2 ≠ -1) :
    stereoInv (stereo v) = mirror v ∧ lambertInv (lambert v) = mirror v ∧
      (stereoInv (stereo v) = v ↔ v 2 = 0) ∧ (lambertInv (lambert v) = v ↔ v 2 = 0) := by
  have key : mirror v = v ↔ v 2 = 0 := by
    constructor
    · intro e
      have := congrFun e 2
      simp only [mirror, cons_val] at this
      linarith
    · intro e
      refine vec3 rfl rfl ?_
      simp [mirror, e]
  rw [stereoInv_stereo h hs, lambertInv_lambert h hs]
  exact ⟨rfl, rfl, key, key⟩

/-- What holds: the inverses give directions, they undo the projections up to the mirror image, and for the
stereographic projection every point of the plane is reached. -/
theorem C154_inverse_partial (p : Fin 2 → ℝ) :
    OnSphere (stereoInv p) ∧ stereo (mirror (stereoInv p)) = p ∧
      (radius2 p ≤ 4 → OnSphere (lambertInv p)) ∧ (radius2 p < 4 → lambert (mirror (lambertInv p)) = p) := by
  have h0 : 0 < 1 + p 0 ^ 2 + p 1 ^ 2 := by positivity
  refine ⟨?_, ?_, ?_, ?_⟩
  · simp only [OnSphere, stereoInv, cons_val_zero, cons_val_one, cons_val]
    field_simp; ring
  · have h1 : 1 + -((p 0 ^ 2 + p 1 ^ 2 - 1) / (1 + p 0 ^ 2 + p 1 ^ 2)) = 2 / (1 + p 0 ^ 2 + p 1 ^ 2) := by
      field_simp; ring
    refine vec2 ?_ ?_ <;>
      simp only [stereo, mirror, stereoInv, cons_val_zero, cons_val_one, cons_val, h1] <;> field_simp
  · intro h
    have h1 : √(1 - (p 0 ^ 2 + p 1 ^ 2) / 4) ^ 2 = 1 - (p 0 ^ 2 + p 1 ^ 2) / 4 :=
      Real.sq_sqrt (by unfold radius2 at h; linarith)
    simp only [OnSphere, lambertInv, cons_val_zero, cons_val_one, cons_val, mul_pow, h1]
    ring
  · intro h
    unfold radius2 at h
    have h1 : (0 : ℝ) < 1 - (p 0 ^ 2 + p 1 ^ 2) / 4 := by linarith
    have h2 : 1 + -(-1 + (p 0 ^ 2 + p 1 ^ 2) / 2) = 2 * (1 - (p 0 ^ 2 + p 1 ^ 2) / 4) := by ring
    have h3 : √(2 / (2 * (1 - (p 0 ^ 2 + p 1 ^ 2) / 4))) * √(1 - (p 0 ^ 2 + p 1 ^ 2) / 4) = 1 := by
      rw [← Real.sqrt_mul (by positivity),
        show 2 / (2 * (1 - (p 0 ^ 2 + p 1 ^ 2) / 4)) * (1 - (p 0 ^ 2 + p 1 ^ 2) / 4) = 1 by
          generalize 1 - (p 0 ^ 2 + p 1 ^ 2) / 4 = a at h1
          field_simp, Real.sqrt_one]
    refine vec2 ?_ ?_ <;>
      simp only [lambert, mirror, lambertInv, cons_val_zero, cons_val_one, cons_val, h2]
    · linear_combination p 0 * h3
    · linear_combination p 1 * h3

/-- The inverse that the colour chart uses is right on the upper half: it undoes the stereographic projection there, and
the projection undoes it on the disc. -/
theorem C154_chart :
    (∀ v, OnSphere v → 0 ≤ v 2 → ipop (stereo v) = v) ∧
      ∀ p, radius2 p ≤ 1 → OnSphere (ipop p) ∧ 0 ≤ ipop p 2 ∧ stereo (ipop p) = p := by
  have flip : ∀ p, radius2 p ≤ 1 → ipop p = mirror (stereoInv p) ∧ 0 ≤ ipop p 2 := by
    intro p hp
    have h0 : 0 < 1 + p 0 ^ 2 + p 1 ^ 2 := by positivity
    have h1 : stereoInv p 2 ≤ 0 := by
      simp only [stereoInv, cons_val]
      apply div_nonpos_of_nonpos_of_nonneg _ h0.le
      unfold radius2 at hp
      linarith
    unfold ipop
    dsimp only
    split_ifs with h
    · refine ⟨?_, ?_⟩
      · refine vec3 rfl rfl ?_
        simp [mirror]
      · simp only [cons_val]; linarith
    · have h2 : stereoInv p 2 = 0 := le_antisymm h1 (not_lt.mp h)
      refine ⟨vec3 rfl rfl ?_, h2.ge⟩
      simp [mirror, h2]
  constructor
  · intro v hv h0
    have hs : v 2 ≠ -1 := by linarith
    have h1 := ((C154_disc hv hs).1).mpr h0
    rw [(flip _ (by simpa using h1)).1, stereoInv_stereo hv hs]
    refine vec3 rfl rfl ?_
    simp [mirror]
  · intro p hp
    obtain ⟨h1, h2⟩ := flip p hp
    have h3 := C154_inverse_partial p
    refine ⟨?_, h2, ?_⟩
    · rw [h1]
      have := h3.1
      simp only [OnSphere, mirror, cons_val_zero, cons_val_one, cons_val] at this ⊢
      linarith
    · rw [h1]; exact h3.2.1

/-- A differentiable curve on the sphere. -/
structure Path (γ : ℝ → Vec) (t : ℝ) (u : Vec) : Prop where
  sphere : ∀ s, OnSphere (γ s)
  deriv : HasDerivAt γ u t

theorem Path.comp {γ : ℝ → Vec} {t : ℝ} {u : Vec} (h : Path γ t u) (i : Fin 3) : HasDerivAt (fun s => γ s i) (u i) t :=
  hasDerivAt_pi.mp h.deriv i

theorem Path.tangent {γ : ℝ → Vec} {t : ℝ} {u : Vec} (h : Path γ t u) :
    γ t 0 * u 0 + γ t 1 * u 1 + γ t 2 * u 2 = 0 := by
  have h1 := (((h.comp 0).fun_pow 2).fun_add ((h.comp 1).fun_pow 2)).fun_add ((h.comp 2).fun_pow 2)
  have h2 : HasDerivAt (fun s => γ s 0 ^ 2 + γ s 1 ^ 2 + γ s 2 ^ 2) 0 t := by
    have : (fun s => γ s 0 ^ 2 + γ s 1 ^ 2 + γ s 2 ^ 2) = fun _ => (1 : ℝ) := funext h.sphere
    rw [this]
    exact hasDerivAt_const _ _
  have h3 := h1.unique h2
  push_cast at h3
  linarith

/-- The derivative of the stereographic projection. -/
noncomputable def dStereo (v u : Vec) : Fin 2 → ℝ :=
  ![(u 0 * (1 + v 2) - v 0 * u 2) / (1 + v 2) ^ 2, (u 1 * (1 + v 2) - v 1 * u 2) / (1 + v 2) ^ 2]

theorem stereo_deriv {γ : ℝ → Vec} {t : ℝ} {u : Vec} (h : Path γ t u) (hs : γ t 2 ≠ -1) :
    HasDerivAt (fun s => stereo (γ s)) (dStereo (γ t) u) t := by
  have h1 := (height (h.sphere t) hs).ne'
  rw [hasDerivAt_pi]
  have h2 := (h.comp 2).const_add 1
  intro i
  fin_cases i
  · exact ((h.comp 0).fun_div h2 h1)
  · exact ((h.comp 1).fun_div h2 h1)

/-- The derivative of the equal area projection. -/
noncomputable def dLambert (v u : Vec) : Fin 2 → ℝ :=
  let f := √(2 / (1 + v 2))
  ![f * (u 0 - v 0 * u 2 / (2 * (1 + v 2))), f * (u 1 - v 1 * u 2 / (2 * (1 + v 2)))]

theorem lambert_deriv {γ : ℝ → Vec} {t : ℝ} {u : Vec} (h : Path γ t u) (hs : γ t 2 ≠ -1) :
    HasDerivAt (fun s => lambert (γ s)) (dLambert (γ t) u) t := by
  have h1 := height (h.sphere t) hs
  have h2 := (((h.comp 2).const_add 1).fun_inv h1.ne').const_mul 2
  have h3 := h2.sqrt (by positivity)
  have h4 : √(2 * (1 + γ t 2)⁻¹) ^ 2 = 2 * (1 + γ t 2)⁻¹ := Real.sq_sqrt (by positivity)
  have h5 : 0 < √(2 * (1 + γ t 2)⁻¹) := Real.sqrt_pos.mpr (by positivity)
  rw [hasDerivAt_pi]
  intro i
  have key : ∀ j : Fin 3, HasDerivAt (fun s => √(2 * (1 + γ s 2)⁻¹) * γ s j)
      (√(2 * (1 + γ t 2)⁻¹) * (u j - γ t j * u 2 / (2 * (1 + γ t 2)))) t := by
    intro j
    refine (h3.fun_mul (h.comp j)).congr_deriv ?_
    generalize √(2 * (1 + γ t 2)⁻¹) = F at h4 h5 ⊢
    have h6 : F ^ 2 * (1 + γ t 2) = 2 := by rw [h4]; field_simp
    field_simp
    linear_combination (γ t j * u 2) * h6
  fin_cases i
  · simpa [lambert, dLambert, div_eq_mul_inv] using key 0
  · simpa [lambert, dLambert, div_eq_mul_inv] using key 1

/-- Stereographic figures keep angles: two curves through one direction are drawn with the same angle between them,
and lengths there are scaled by `1 / (1 + z)`. -/
theorem C154_angles {γ δ : ℝ → Vec} {t : ℝ} {u w : Vec} (hγ : Path γ t u) (hδ : Path δ t w) (hm : γ t = δ t)
    (hs : γ t 2 ≠ -1) {a b : Fin 2 → ℝ} (ha : HasDerivAt (fun s => stereo (γ s)) a t)
    (hb : HasDerivAt (fun s => stereo (δ s)) b t) : a ⬝ᵥ b = (u ⬝ᵥ w) / (1 + γ t 2) ^ 2 := by
  rw [ha.unique (stereo_deriv hγ hs), hb.unique (stereo_deriv hδ (hm ▸ hs)), ← hm]
  have t1 := hγ.tangent
  have t2 := hδ.tangent
  rw [← hm] at t2
  have h1 := (height (hγ.sphere t) hs).ne'
  have h0 := hγ.sphere t
  unfold OnSphere at h0
  simp only [dotProduct, Fin.sum_univ_two, Fin.sum_univ_three, dStereo, cons_val_zero, cons_val_one]
  field_simp
  linear_combination (u 2 * w 2) * h0 - (w 2 * (1 + γ t 2)) * t1 - (u 2 * (1 + γ t 2)) * t2

/-- Equal area figures keep areas: the parallelogram of two tangents at one direction is drawn with the same signed
area. -/
theorem C154_areas {γ δ : ℝ → Vec} {t : ℝ} {u w : Vec} (hγ : Path γ t u) (hδ : Path δ t w) (hm : γ t = δ t)
    (hs : γ t 2 ≠ -1) {a b : Fin 2 → ℝ} (ha : HasDerivAt (fun s => lambert (γ s)) a t)
    (hb : HasDerivAt (fun s => lambert (δ s)) b t) : a 0 * b 1 - a 1 * b 0 = γ t ⬝ᵥ cross u w := by
  rw [ha.unique (lambert_deriv hγ hs), hb.unique (lambert_deriv hδ (hm ▸ hs)), ← hm]
  have t1 := hγ.tangent
  have t2 := hδ.tangent
  rw [← hm] at t2
  have h1 := (height (hγ.sphere t) hs)
  have h0 := hγ.sphere t
  unfold OnSphere at h0
  have h2 : √(2 / (1 + γ t 2)) ^ 2 = 2 / (1 + γ t 2) := Real.sq_sqrt (by positivity)
  simp only [dotProduct, Fin.sum_univ_three, dLambert, cross, cons_val_zero, cons_val_one, cons_val]
  generalize √(2 / (1 + γ t 2)) = F at h2 ⊢
  generalize γ t 0 = x at *
  generalize γ t 1 = y at *
  generalize γ t 2 = z at *
  obtain ⟨X, hX⟩ : ∃ X, X = u 1 * w 2 - u 2 * w 1 := ⟨_, rfl⟩
  obtain ⟨Y, hY⟩ : ∃ Y, Y = u 2 * w 0 - u 0 * w 2 := ⟨_, rfl⟩
  obtain ⟨Z, hZ⟩ : ∃ Z, Z = u 0 * w 1 - u 1 * w 0 := ⟨_, rfl⟩
  have c1 : X * y = Y * x := by rw [hX, hY]; linear_combination w 2 * t1 - u 2 * t2
  have c2 : Y * z = Z * y := by rw [hY, hZ]; linear_combination w 0 * t1 - u 0 * t2
  have c3 : Z * x = X * z := by rw [hX, hZ]; linear_combination w 1 * t1 - u 1 * t2
  have e1 : F * (u 0 - x * u 2 / (2 * (1 + z))) * (F * (w 1 - y * w 2 / (2 * (1 + z)))) -
      F * (u 1 - y * u 2 / (2 * (1 + z))) * (F * (w 0 - x * w 2 / (2 * (1 + z)))) =
      F ^ 2 * (Z + (x * X + y * Y) / (2 * (1 + z))) := by
    rw [hX, hY, hZ]; ring
  obtain ⟨L, hL⟩ : ∃ L, L = x * X + y * Y + z * Z := ⟨_, rfl⟩
  have e2 : Z = z * L := by rw [hL]; linear_combination x * c3 - y * c2 - Z * h0
  have e3 : x * X + y * Y = L - z * (z * L) := by rw [← e2]; linarith
  rw [e1, h2, ← hX, ← hY, ← hZ, ← hL, e3, e2]
  field_simp
  ring

/-- A great circle is such a curve. -/
example : ∃ γ u, Path γ 0 u ∧ γ 0 2 ≠ -1 ∧ u ≠ 0 := by
  refine ⟨fun s => ![Real.cos s, Real.sin s, 0], ![0, 1, 0], ⟨?_, ?_⟩, ?_, ?_⟩
  · intro s
    simp [OnSphere]
  · rw [hasDerivAt_pi]
    intro i
    fin_cases i
    · simpa using Real.hasDerivAt_cos 0
    · simpa using Real.hasDerivAt_sin 0
    · simpa using hasDerivAt_const (0 : ℝ) (0 : ℝ)
  · simp
  · intro h
    simpa using congrFun h 1

/-- Polar coordinates and back, both ways. -/
theorem C154_polar :
    (∀ x, pol2cart (cart2pol x).2 (cart2pol x).1 = x) ∧
      ∀ R T, 0 < R → T ∈ Set.Ioc (-Real.pi) Real.pi → cart2pol (pol2cart R T) = (T, R) := by
  constructor
  · intro x
    obtain ⟨h1, h2⟩ := atan2_facts (x 1) (x 0)
    refine vec2 ?_ ?_ <;> simp only [pol2cart, cart2pol, cons_val_zero, cons_val_one]
    · rw [sq, sq]; exact h1
    · rw [sq, sq]; exact h2
  · intro R T hR hT
    have h1 : (R * Real.cos T) ^ 2 + (R * Real.sin T) ^ 2 = R ^ 2 := by
      linear_combination R ^ 2 * Real.sin_sq_add_cos_sq T
    simp only [cart2pol, pol2cart, cons_val_zero, cons_val_one, h1, Real.sqrt_sq hR.le]
    congr 1
    rw [atan2, show (⟨R * Real.cos T, R * Real.sin T⟩ : ℂ) = (R : ℂ) * (Complex.cos T + Complex.sin T * Complex.I) by
      apply Complex.ext <;> simp [← Complex.ofReal_cos, ← Complex.ofReal_sin]]
    exact Complex.arg_mul_cos_add_sin_mul_I hR hT

end Neml.PoleFigures
