import Verif.Model.Surface
import Verif.Model.SmallStrain
import Mathlib.Algebra.BigOperators.Group.Finset.Sigma

/-!
# Model of the flow rules: src/ri_flow.cxx, src/visco_flow.cxx and src/general_flow.cxx

Stress has index set `ι`, history `κ`, the hardening variables seen by the yield surface `μ`. The flat
history of superimposed rules, one member after the other, is indexed by the pairs of a member and an
entry of its history. Derivative arrays are taken as zero where the code leaves the zero filled
buffers of its callers untouched.
-/

namespace Neml.Flow

open Matrix Neml.SmallStrain

variable {ι κ μ : Type} [Fintype ι] [DecidableEq ι] [Fintype κ] [DecidableEq κ] [Fintype μ]
  [DecidableEq μ]

/-- hardening.h: the interface `HardeningRule`: hardening variables from the history. -/
structure Hardening (κ μ : Type) where
  q : (κ → ℝ) → ℝ → μ → ℝ
  dq_da : (κ → ℝ) → ℝ → Matrix μ κ ℝ

/-- A vector valued function of stress, history and temperature with its two derivative matrices. -/
structure Part (ι κ μ : Type) where
  v : (ι → ℝ) → (κ → ℝ) → ℝ → μ → ℝ
  ds : (ι → ℝ) → (κ → ℝ) → ℝ → Matrix μ ι ℝ
  da : (ι → ℝ) → (κ → ℝ) → ℝ → Matrix μ κ ℝ

/-- The part that is zero: visco_flow.cxx:16-102 and hardening.cxx:448-490, the defaults. -/
def Part.zero : Part ι κ μ := ⟨fun _ _ _ => 0, fun _ _ _ => 0, fun _ _ _ => 0⟩

/-- hardening.h: the interface `NonAssociativeHardening`. -/
structure NonAssoc (ι κ μ : Type) extends Hardening κ μ where
  h : Part ι κ κ
  h_time : Part ι κ κ
  h_temp : Part ι κ κ

/-- ri_flow.cxx:56-182 `RateIndependentAssociativeFlow`: as many history as hardening variables. -/
def associative (sf : Surface ι κ) (hd : Hardening κ κ) : RIFlow ℝ ι κ where
  f s a T := sf.f s (hd.q a T) T
  df_ds s a T := sf.df_ds s (hd.q a T) T
  df_da s a T := (hd.dq_da a T)ᵀ *ᵥ sf.df_dq s (hd.q a T) T
  g s a T := sf.df_ds s (hd.q a T) T
  dg_ds s a T := sf.df_dsds s (hd.q a T) T
  dg_da s a T := sf.df_dsdq s (hd.q a T) T * hd.dq_da a T
  h s a T := sf.df_dq s (hd.q a T) T
  dh_ds s a T := sf.df_dqds s (hd.q a T) T
  dh_da s a T := sf.df_dqdq s (hd.q a T) T * hd.dq_da a T

/-- ri_flow.cxx:226-327 `RateIndependentNonAssociativeHardening`. -/
def nonAssociative (sf : Surface ι μ) (hd : NonAssoc ι κ μ) : RIFlow ℝ ι κ where
  f s a T := sf.f s (hd.q a T) T
  df_ds s a T := sf.df_ds s (hd.q a T) T
  df_da s a T := (hd.dq_da a T)ᵀ *ᵥ sf.df_dq s (hd.q a T) T
  g s a T := sf.df_ds s (hd.q a T) T
  dg_ds s a T := sf.df_dsds s (hd.q a T) T
  dg_da s a T := sf.df_dsdq s (hd.q a T) T * hd.dq_da a T
  h := hd.h.v
  dh_ds := hd.h.ds
  dh_da := hd.h.da

/-- visco_flow.h: the interface `ViscoPlasticFlowRule`: scalar rate, flow direction and hardening
directions, each with parts proportional to time and to temperature. -/
structure Visco (ι κ : Type) where
  y : (ι → ℝ) → (κ → ℝ) → ℝ → ℝ
  dy_ds : (ι → ℝ) → (κ → ℝ) → ℝ → ι → ℝ
  dy_da : (ι → ℝ) → (κ → ℝ) → ℝ → κ → ℝ
  g : Part ι κ ι
  g_time : Part ι κ ι
  g_temp : Part ι κ ι
  h : Part ι κ κ
  h_time : Part ι κ κ
  h_temp : Part ι κ κ

/-- visco_flow.h: the interface `GFlow`: rate from overstress. -/
structure GFlow where
  g : ℝ → ℝ → ℝ
  dg : ℝ → ℝ → ℝ

/-- visco_flow.cxx:657-666 `GPowerLaw`. -/
noncomputable def gPowerLaw (n eta : ℝ → ℝ) : GFlow where
  g f T := (f / eta T) ^ n T
  dg f T := n T * (f / eta T) ^ (n T - 1) / eta T

/-- visco_flow.cxx:726-878 `PerzynaFlowRule`. -/
noncomputable def perzyna (sf : Surface ι κ) (hd : Hardening κ κ) (gf : GFlow) : Visco ι κ where
  y s a T := if sf.f s (hd.q a T) T > 0 then gf.g |sf.f s (hd.q a T) T| T else 0
  dy_ds s a T :=
    if sf.f s (hd.q a T) T > 0 then
      fun i => sf.df_ds s (hd.q a T) T i * gf.dg |sf.f s (hd.q a T) T| T
    else 0
  dy_da s a T :=
    if sf.f s (hd.q a T) T > 0 then
      fun i => ((hd.dq_da a T)ᵀ *ᵥ sf.df_dq s (hd.q a T) T) i * gf.dg |sf.f s (hd.q a T) T| T
    else 0
  g := ⟨fun s a T => sf.df_ds s (hd.q a T) T, fun s a T => sf.df_dsds s (hd.q a T) T,
    fun s a T => sf.df_dsdq s (hd.q a T) T * hd.dq_da a T⟩
  g_time := Part.zero
  g_temp := Part.zero
  h := ⟨fun s a T => sf.df_dq s (hd.q a T) T, fun s a T => sf.df_dqds s (hd.q a T) T,
    fun s a T => sf.df_dqdq s (hd.q a T) T * hd.dq_da a T⟩
  h_time := Part.zero
  h_temp := Part.zero

/-- visco_flow.cxx:906-990 `LinearViscousFlow`: no history, the surface with zero hardening
variables. -/
noncomputable def linearViscous (sf : Surface ι μ) (eta : ℝ → ℝ) : Visco ι Empty where
  y s _ T := 3 / 2 * sf.f s 0 T / eta T
  dy_ds s _ T := fun i => 3 / 2 * sf.df_ds s 0 T i / eta T
  dy_da _ _ _ := 0
  g := ⟨fun s _ T => sf.df_ds s 0 T, fun s _ T => sf.df_dsds s 0 T, fun _ _ _ => 0⟩
  g_time := Part.zero
  g_temp := Part.zero
  h := Part.zero
  h_time := Part.zero
  h_temp := Part.zero

/-- visco_flow.h: the interface `FluidityModel`. -/
structure Fluidity where
  eta : ℝ → ℝ → ℝ
  deta : ℝ → ℝ → ℝ

/-- visco_flow.cxx:1026-1034 `ConstantFluidity`. -/
def constantFluidity (eta : ℝ → ℝ) : Fluidity := ⟨fun _ T => eta T, fun _ _ => 0⟩

/-- visco_flow.cxx:1067-1082 `SaturatingFluidity`. -/
noncomputable def saturatingFluidity (K0 A b : ℝ → ℝ) : Fluidity where
  eta a T := K0 T + A T * (1 - Real.exp (-b T * a))
  deta a T := A T * b T * Real.exp (-b T * a)

/-- visco_flow.cxx:1136-1311 `ChabocheFlowRule`. `first` is the history entry `alpha[0]`. -/
noncomputable def chabocheFlow (sf : Surface ι μ) (hd : NonAssoc ι κ μ) (fl : Fluidity)
    (n pre : ℝ → ℝ) (first : κ) : Visco ι κ where
  y s a T :=
    let fv := sf.f s (hd.q a T) T
    if fv > 0 then √(3 / 2) * (fv / (√(2 / 3) * fl.eta (a first) T)) ^ n T * pre T else 0
  dy_ds s a T :=
    let fv := sf.f s (hd.q a T) T
    let eta := √(2 / 3) * fl.eta (a first) T
    if fv > 0 then
      fun i => sf.df_ds s (hd.q a T) T i * (√(3 / 2) * (fv / eta) ^ (n T - 1) * n T / eta * pre T)
    else 0
  dy_da s a T :=
    let fv := sf.f s (hd.q a T) T
    let eta := √(2 / 3) * fl.eta (a first) T
    if fv > 0 then
      fun i => ((hd.dq_da a T)ᵀ *ᵥ sf.df_dq s (hd.q a T) T) i *
          (√(3 / 2) * (fv / eta) ^ (n T - 1) * n T / eta * pre T) +
        if i = first then √(2 / 3) * fl.deta (a first) T *
          (-√(3 / 2) * fv * (fv / eta) ^ (n T - 1) * n T / (eta * eta) * pre T) else 0
    else 0
  g := ⟨fun s a T => sf.df_ds s (hd.q a T) T, fun s a T => sf.df_dsds s (hd.q a T) T,
    fun s a T => sf.df_dsdq s (hd.q a T) T * hd.dq_da a T⟩
  g_time := Part.zero
  g_temp := Part.zero
  h := hd.h
  h_time := hd.h_time
  h_temp := hd.h_temp

section super

variable {n : Nat} {α : Fin n → Type} [∀ i, Fintype (α i)]

/-- visco_flow.cxx:610-620 `model_history_`: the history of member `i`. -/
def member (a : (Σ i, α i) → ℝ) (i : Fin n) : α i → ℝ := fun j => a ⟨i, j⟩

/-- visco_flow.cxx:162-172 `y`. -/
def superY (rules : ∀ i, Visco ι (α i)) (s : ι → ℝ) (a : (Σ i, α i) → ℝ) (T : ℝ) : ℝ :=
  ∑ i, (rules i).y s (member a i) T

/-- visco_flow.cxx:174-184 `dy_ds`. -/
def superDyDs (rules : ∀ i, Visco ι (α i)) (s : ι → ℝ) (a : (Σ i, α i) → ℝ) (T : ℝ) : ι → ℝ :=
  ∑ i, (rules i).dy_ds s (member a i) T

/-- visco_flow.cxx:186-192 `dy_da`. -/
def superDyDa (rules : ∀ i, Visco ι (α i)) (s : ι → ℝ) (a : (Σ i, α i) → ℝ) (T : ℝ) :
    (Σ i, α i) → ℝ :=
  fun k => (rules k.1).dy_da s (member a k.1) T k.2

/-- visco_flow.cxx:194-296, 298-401, 403-505: `g`, `g_time` and `g_temp` with their derivatives have
the same code; `pt` selects the part of the members. -/
noncomputable def superPart (rules : ∀ i, Visco ι (α i)) (pt : ∀ i, Part ι (α i) ι) :
    Part ι (Σ i, α i) ι :=
  let g : (ι → ℝ) → ((Σ i, α i) → ℝ) → ℝ → ι → ℝ := fun s a T =>
    let tot := fun j => ∑ i, (pt i).v s (member a i) T j * (rules i).y s (member a i) T
    if superY rules s a T > 0 then fun j => tot j / superY rules s a T else tot
  { v := g
    ds := fun s a T =>
      let tot : Matrix ι ι ℝ := ∑ i, ((rules i).y s (member a i) T • (pt i).ds s (member a i) T +
        vecMulVec ((pt i).v s (member a i) T) ((rules i).dy_ds s (member a i) T))
      let y := superY rules s a T
      if y > 0 then (1 / y) • tot - vecMulVec (fun j => g s a T j / y) (superDyDs rules s a T)
      else tot - vecMulVec (g s a T) (superDyDs rules s a T)
    da := fun s a T =>
      let tot : Matrix ι (Σ i, α i) ℝ := Matrix.of fun r k =>
        (rules k.1).y s (member a k.1) T * (pt k.1).da s (member a k.1) T r k.2 +
          (pt k.1).v s (member a k.1) T r * (rules k.1).dy_da s (member a k.1) T k.2
      let y := superY rules s a T
      if y > 0 then (1 / y) • tot - vecMulVec (fun j => g s a T j / y) (superDyDa rules s a T)
      else tot - vecMulVec (g s a T) (superDyDa rules s a T) }

/-- visco_flow.cxx:507-607: `h`, `h_time` and `h_temp` with their derivatives, member by member. -/
def superHist (pt : ∀ i, Part ι (α i) (α i)) :
    Part ι (Σ i, α i) (Σ i, α i) where
  v s a T := fun k => (pt k.1).v s (member a k.1) T k.2
  ds s a T := Matrix.of fun k j => (pt k.1).ds s (member a k.1) T k.2 j
  da s a T := Matrix.of fun k l =>
    if h : l.1 = k.1 then (pt k.1).da s (member a k.1) T k.2 (h ▸ l.2) else 0

/-- visco_flow.cxx:108-625 `SuperimposedViscoPlasticFlowRule`. -/
noncomputable def superimposed (rules : ∀ i, Visco ι (α i)) :
    Visco ι (Σ i, α i) where
  y := superY rules
  dy_ds := superDyDs rules
  dy_da := superDyDa rules
  g := superPart rules fun i => (rules i).g
  g_time := superPart rules fun i => (rules i).g_time
  g_temp := superPart rules fun i => (rules i).g_temp
  h := superHist fun i => (rules i).h
  h_time := superHist fun i => (rules i).h_time
  h_temp := superHist fun i => (rules i).h_temp

end super

/-- general_flow.cxx:82-104 and 299-322: the inelastic strain rate. -/
def inelasticRate (fl : Visco ι κ) (s : ι → ℝ) (a : κ → ℝ) (T Td : ℝ) : ι → ℝ := fun i =>
  fl.y s a T * fl.g.v s a T i + Td * fl.g_temp.v s a T i + fl.g_time.v s a T i

/-- general_flow.cxx:76-327 `TVPFlowRule`. The refusal of rates above a limit (line 90) is
`tvpAccepts`. -/
def tvp (el : Elastic ℝ ι) (fl : Visco ι κ) : GenFlow ℝ ι κ where
  s s a ed T Td := el.C T *ᵥ fun i =>
    ed i - fl.y s a T * fl.g.v s a T i - Td * fl.g_temp.v s a T i - fl.g_time.v s a T i
  ds_ds s a _ T Td := el.C T *
    (-fl.y s a T • fl.g.ds s a T - vecMulVec (fl.g.v s a T) (fl.dy_ds s a T) -
      Td • fl.g_temp.ds s a T - fl.g_time.ds s a T)
  ds_da s a _ T Td := el.C T *
    (-fl.y s a T • fl.g.da s a T - vecMulVec (fl.g.v s a T) (fl.dy_da s a T) -
      Td • fl.g_temp.da s a T - fl.g_time.da s a T)
  ds_de _ _ _ T _ := el.C T
  a s a _ T Td := fun i =>
    fl.h.v s a T i * fl.y s a T + fl.h_temp.v s a T i * Td + fl.h_time.v s a T i
  da_ds s a _ T Td :=
    fl.y s a T • fl.h.ds s a T + vecMulVec (fl.h.v s a T) (fl.dy_ds s a T) +
      Td • fl.h_temp.ds s a T + fl.h_time.ds s a T
  da_da s a _ T Td :=
    fl.y s a T • fl.h.da s a T + vecMulVec (fl.h.v s a T) (fl.dy_da s a T) +
      Td • fl.h_temp.da s a T + fl.h_time.da s a T
  da_de _ _ _ _ _ := 0
  work_rate s a _ T Td := s ⬝ᵥ inelasticRate fl s a T Td

/-- general_flow.cxx:88-91: the stress rate is refused above the rate limit. -/
def tvpAccepts (limit : ℝ) (fl : Visco ι κ) (s : ι → ℝ) (a : κ → ℝ) (T : ℝ) : Prop :=
  ¬ fl.y s a T > limit

end Neml.Flow
