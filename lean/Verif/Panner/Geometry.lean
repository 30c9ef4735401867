import Mathlib.Analysis.SpecialFunctions.Trigonometric.Inverse
import Mathlib.Tactic.LinearCombination
import Mathlib.Tactic.FieldSimp

/-!
# C65: where the listener hears a source

Models `azimuth_and_elevation`, `distance` and `angle` (`/repo/src/spatial.rs` l.205-301) with the functions of the
crate `vecmath` they use, over the reals: rounding is not modelled (in `f32` the argument of `acos` can exceed 1 by a
rounding error, which gives NaN).
-/

namespace Verif.Panner

open Real

/-- `Vector3<f32>` -/
@[ext] structure V3 where
  x : ℝ
  y : ℝ
  z : ℝ

namespace V3

/-- `vec3_sub` -/
def sub (a b : V3) : V3 := ⟨a.x - b.x, a.y - b.y, a.z - b.z⟩
/-- `vec3_scale` -/
def scale (a : V3) (t : ℝ) : V3 := ⟨a.x * t, a.y * t, a.z * t⟩
/-- `vec3_dot` -/
def dot (a b : V3) : ℝ := a.x * b.x + a.y * b.y + a.z * b.z
/-- `vec3_cross` -/
def cross (a b : V3) : V3 := ⟨a.y * b.z - a.z * b.y, a.z * b.x - a.x * b.z, a.x * b.y - a.y * b.x⟩
/-- `vec3_square_len` -/
def sq (a : V3) : ℝ := a.x * a.x + a.y * a.y + a.z * a.z
/-- `vec3_len` -/
noncomputable def len (a : V3) : ℝ := √a.sq
/-- `vec3_normalized` -/
noncomputable def normalized (a : V3) : V3 := a.scale (1 / a.len)

theorem sq_nonneg (a : V3) : 0 ≤ a.sq := by
  unfold sq; nlinarith [mul_self_nonneg a.x, mul_self_nonneg a.y, mul_self_nonneg a.z]

theorem len_pos {a : V3} (h : 0 < a.sq) : 0 < a.len := Real.sqrt_pos.mpr h

theorem len_sq (a : V3) : a.len ^ 2 = a.sq := Real.sq_sqrt a.sq_nonneg

theorem normalized_sq {a : V3} (h : 0 < a.sq) : a.normalized.sq = 1 := by
  have hp := len_pos h
  have e := len_sq a
  have : a.normalized.sq = a.sq * (1 / a.len) ^ 2 := by unfold normalized scale sq; ring
  rw [this, ← e]
  field_simp

theorem normalized_dot (a b : V3) : a.normalized.dot b = a.dot b / a.len := by
  unfold normalized scale dot; ring

theorem normalized_scale {a : V3} {k : ℝ} (hk : 0 < k) (ha : a.sq = 1) : (a.scale k).normalized = a := by
  have e : (a.scale k).sq = k ^ 2 := by
    have : (a.scale k).sq = a.sq * k ^ 2 := by unfold scale sq; ring
    rw [this, ha, one_mul]
  have l : (a.scale k).len = k := by unfold len; rw [e]; exact Real.sqrt_sq hk.le
  have h : k * (1 / k) = 1 := by field_simp
  unfold normalized
  rw [l]
  ext <;> simp only [scale, mul_assoc, h, mul_one]

end V3

open V3

/-- `f32::MIN_POSITIVE` -/
noncomputable def minPositive : ℝ := 1 / 2 ^ 126

/-- the azimuth of a unit vector in the horizontal plane, l.253-268; `c` and `f` are its components to the right and
to the front -/
noncomputable def azimuthOf (c f : ℝ) : ℝ :=
  let a := 180 * arccos c / π
  let a := if f < 0 then 360 - a else a
  if 0 ≤ a ∧ a ≤ 270 then 90 - a else 450 - a

/-- the elevation, l.235-241; `u` is the component of a unit vector upwards -/
noncomputable def elevationOf (u : ℝ) : ℝ :=
  let e := 90 - 180 * arccos u / π
  if e > 90 then 180 - e else if e < -90 then -180 - e else e

/-- `azimuth_and_elevation`, l.205-270 -/
noncomputable def azimuthElevation (src lis fwd up : V3) : ℝ × ℝ :=
  let rel := src.sub lis
  if rel.sq ≤ minPositive then (0, 0)
  else
    let s := rel.normalized
    let right := fwd.cross up
    if right.sq = 0 then (0, 0)
    else
      let rn := right.normalized
      let fn := fwd.normalized
      let u := rn.cross fn
      let el := elevationOf (s.dot u)
      let p := s.sub (u.scale (s.dot u))
      if p.sq = 0 then (0, el)
      else
        let pn := p.normalized
        (azimuthOf (pn.dot rn) (pn.dot fn), el)

/-- `distance`, l.272-275 -/
noncomputable def distance (src lis : V3) : ℝ := (src.sub lis).len

/-- `angle`, l.277-301 -/
noncomputable def angle (src ori lis : V3) : ℝ :=
  if ori.sq = 0 then 0
  else
    let rel := src.sub lis
    if rel.sq ≤ minPositive then 0
    else |180 * arccos (rel.normalized.dot ori.normalized) / π|

/-! ## Specification -/

/-- degrees to radians -/
noncomputable def rad (d : ℝ) : ℝ := d * π / 180

/-- Specification: the axes of the listener. `F` points along `fwd`, `R` is orthogonal to `fwd` and `up`, `U` is on
the side of `up`, and `R` is on the right hand of someone who looks along `F` with the head along `U`. -/
structure IsFrame (fwd up R F U : V3) : Prop where
  fwd : ∃ k, 0 < k ∧ fwd = F.scale k
  unitF : F.sq = 1
  unitU : U.sq = 1
  orth : F.dot U = 0
  right : R = F.cross U
  up_right : up.dot R = 0
  up_up : 0 < up.dot U

/-- Specification: `az` and `el` (in degrees) are the spherical coordinates of `v` in the axes `R`, `F`, `U`. Straight
above or below the azimuth is 0. -/
structure Spherical (v R F U : V3) (az el : ℝ) : Prop where
  right : v.dot R = v.len * (cos (rad el) * sin (rad az))
  front : v.dot F = v.len * (cos (rad el) * cos (rad az))
  above : v.dot U = v.len * sin (rad el)
  az_range : -180 ≤ az ∧ az ≤ 180
  el_range : -90 ≤ el ∧ el ≤ 90
  pole : v.dot R = 0 → v.dot F = 0 → az = 0

/-! ## Proofs -/

theorem complete {R F : V3} (hR : R.sq = 1) (hF : F.sq = 1) (ho : R.dot F = 0) (v w : V3) :
    v.dot w = v.dot R * w.dot R + v.dot F * w.dot F + v.dot (R.cross F) * w.dot (R.cross F) := by
  obtain ⟨a, b, c⟩ := R
  obtain ⟨d, e, f⟩ := F
  obtain ⟨v1, v2, v3⟩ := v
  obtain ⟨w1, w2, w3⟩ := w
  simp only [V3.sq, V3.dot, V3.cross] at *
  have xx : (b*f-c*e)^2 + a^2 + d^2 = 1 := by
    linear_combination (e^2+f^2)*hR + (1-a^2)*hF - (a*d+b*e+c*f - 2*a*d)*ho
  have yy : (c*d-a*f)^2 + b^2 + e^2 = 1 := by
    linear_combination (d^2+f^2)*hR + (1-b^2)*hF - (a*d+b*e+c*f - 2*b*e)*ho
  have zz : (a*e-b*d)^2 + c^2 + f^2 = 1 := by
    linear_combination (d^2+e^2)*hR + (1-c^2)*hF - (a*d+b*e+c*f - 2*c*f)*ho
  have xy : (b*f-c*e)*(c*d-a*f) + a*b + d*e = 0 := by
    linear_combination -a*b*hF - d*e*hR + (b*d+a*e)*ho
  have xz : (b*f-c*e)*(a*e-b*d) + a*c + d*f = 0 := by
    linear_combination -a*c*hF - d*f*hR + (c*d+a*f)*ho
  have yz : (c*d-a*f)*(a*e-b*d) + b*c + e*f = 0 := by
    linear_combination -b*c*hF - e*f*hR + (b*f+c*e)*ho
  linear_combination -v1*w1*xx - v2*w2*yy - v3*w3*zz - (v1*w2+v2*w1)*xy - (v1*w3+v3*w1)*xz - (v2*w3+v3*w2)*yz

theorem cross_of_frame {fwd up R F U : V3} (h : IsFrame fwd up R F U) :
    R.sq = 1 ∧ R.dot F = 0 ∧ U = R.cross F ∧ ∃ k, 0 < k ∧ fwd.cross up = R.scale k := by
  obtain ⟨k, hk, e⟩ := h.fwd
  have hF := h.unitF
  have hU := h.unitU
  have ho := h.orth
  have hr := h.up_right
  have eR := h.right
  have hR : R.sq = 1 := by
    subst eR
    obtain ⟨a, b, c⟩ := F
    obtain ⟨d, e, f⟩ := U
    simp only [V3.sq, V3.dot, V3.cross] at *
    linear_combination (d*d+e*e+f*f) * hF + hU - (a*d+b*e+c*f) * ho
  have hRF : R.dot F = 0 := by subst eR; unfold V3.dot V3.cross; simp only; ring
  have eU : U = R.cross F := by
    subst eR
    obtain ⟨a, b, c⟩ := F
    obtain ⟨d, e, f⟩ := U
    simp only [V3.sq, V3.dot, V3.cross] at *
    ext
    · simp only; linear_combination -d * hF + a * ho
    · simp only; linear_combination -e * hF + b * ho
    · simp only; linear_combination -f * hF + c * ho
  refine ⟨hR, hRF, eU, k * up.dot U, mul_pos hk h.up_up, ?_⟩
  have key : ∀ w : V3, (F.cross up).dot w = up.dot U * R.dot w := by
    intro w
    have c := complete hR hF hRF (F.cross up) w
    have c1 : (F.cross up).dot R = up.dot U := by
      rw [eU]; unfold V3.dot V3.cross; simp only; ring
    have c2 : (F.cross up).dot F = 0 := by unfold V3.dot V3.cross; simp only; ring
    have c3 : (F.cross up).dot (R.cross F) = 0 := by
      clear * - hRF hr
      obtain ⟨a, b, c⟩ := F
      obtain ⟨d, e, f⟩ := R
      obtain ⟨g, j, i⟩ := up
      simp only [V3.dot, V3.cross] at *
      linear_combination (a*g+b*j+c*i)*hRF - (a*a+b*b+c*c)*hr
    rw [c, c1, c2, c3]
    have : w.dot R = R.dot w := by unfold V3.dot; ring
    rw [this]; ring
  have kx := key ⟨1, 0, 0⟩
  have ky := key ⟨0, 1, 0⟩
  have kz := key ⟨0, 0, 1⟩
  subst e
  generalize up.dot U = t at *
  obtain ⟨a, b, c⟩ := F
  obtain ⟨d, e, f⟩ := R
  obtain ⟨g, h', i⟩ := up
  simp only [V3.dot, V3.cross] at kx ky kz
  ext
  · simp only [V3.cross, V3.scale]; linear_combination k * kx
  · simp only [V3.cross, V3.scale]; linear_combination k * ky
  · simp only [V3.cross, V3.scale]; linear_combination k * kz

theorem rad_azimuthOf {c f : ℝ} (h : c ^ 2 + f ^ 2 = 1) :
    sin (rad (azimuthOf c f)) = c ∧ cos (rad (azimuthOf c f)) = f ∧ -180 ≤ azimuthOf c f ∧ azimuthOf c f ≤ 180 := by
  have hp := pi_pos
  have c1 : -1 ≤ c := by nlinarith [sq_nonneg f]
  have c2 : c ≤ 1 := by nlinarith [sq_nonneg f]
  have e1 : cos (arccos c) = c := cos_arccos c1 c2
  have e2 : sin (arccos c) = |f| := by
    rw [sin_arccos, show 1 - c ^ 2 = f ^ 2 by linarith, sqrt_sq_eq_abs]
  have t0 := arccos_nonneg c
  have t1 := arccos_le_pi c
  unfold azimuthOf
  simp only
  generalize arccos c = θ at *
  have b0 : 0 ≤ 180 * θ / π := by positivity
  have b1 : 180 * θ / π ≤ 180 := by rw [div_le_iff₀ hp]; nlinarith
  have hθ : 180 * θ / π * π / 180 = θ := by field_simp
  by_cases hf : f < 0
  · rw [if_pos hf]
    by_cases hle : 0 ≤ 360 - 180 * θ / π ∧ 360 - 180 * θ / π ≤ 270
    · rw [if_pos hle]
      have : rad (90 - (360 - 180 * θ / π)) = (θ + π / 2) - 2 * π := by
        unfold rad; linear_combination hθ
      rw [this, sin_sub_two_pi, cos_sub_two_pi, sin_add_pi_div_two, cos_add_pi_div_two, e1, e2, abs_of_neg hf]
      refine ⟨rfl, by ring, by linarith [hle.2], by linarith [hle.2]⟩
    · rw [if_neg hle]
      have h3 : 270 < 360 - 180 * θ / π := by
        by_contra hc
        exact hle ⟨by linarith, by linarith⟩
      have : rad (450 - (360 - 180 * θ / π)) = θ + π / 2 := by
        unfold rad; linear_combination hθ
      rw [this, sin_add_pi_div_two, cos_add_pi_div_two, e1, e2, abs_of_neg hf]
      refine ⟨rfl, by ring, by linarith, by linarith⟩
  · rw [if_neg hf, if_pos ⟨b0, by linarith⟩]
    have : rad (90 - 180 * θ / π) = π / 2 - θ := by unfold rad; linear_combination -hθ
    rw [this, sin_pi_div_two_sub, cos_pi_div_two_sub, e1, e2, abs_of_nonneg (not_lt.mp hf)]
    exact ⟨rfl, rfl, by linarith, by linarith⟩

theorem rad_elevationOf {u : ℝ} (h1 : -1 ≤ u) (h2 : u ≤ 1) :
    sin (rad (elevationOf u)) = u ∧ cos (rad (elevationOf u)) = √(1 - u ^ 2) ∧
    -90 ≤ elevationOf u ∧ elevationOf u ≤ 90 := by
  have hp := pi_pos
  have e1 : cos (arccos u) = u := cos_arccos h1 h2
  have e2 : sin (arccos u) = √(1 - u ^ 2) := sin_arccos u
  have t0 := arccos_nonneg u
  have t1 := arccos_le_pi u
  unfold elevationOf
  simp only
  generalize arccos u = θ at *
  have b0 : 0 ≤ 180 * θ / π := by positivity
  have b1 : 180 * θ / π ≤ 180 := by rw [div_le_iff₀ hp]; nlinarith
  have hθ : 180 * θ / π * π / 180 = θ := by field_simp
  rw [if_neg (by linarith), if_neg (by linarith)]
  have : rad (90 - 180 * θ / π) = π / 2 - θ := by unfold rad; linear_combination -hθ
  rw [this, sin_pi_div_two_sub, cos_pi_div_two_sub, e1, e2]
  exact ⟨rfl, rfl, by linarith, by linarith⟩

/-- C65: for every position and orientation of the listener the azimuth and the elevation are the spherical
coordinates of the source seen from the listener. -/
theorem C65_spherical {src lis fwd up R F U : V3} (hf : IsFrame fwd up R F U)
    (hd : minPositive < (src.sub lis).sq) :
    Spherical (src.sub lis) R F U (azimuthElevation src lis fwd up).1 (azimuthElevation src lis fwd up).2 := by
  obtain ⟨hR, hRF, eU, k, hk, hc⟩ := cross_of_frame hf
  obtain ⟨k', hk', ef⟩ := hf.fwd
  have hF := hf.unitF
  have hmin : (0 : ℝ) < minPositive := by unfold minPositive; positivity
  unfold azimuthElevation
  simp only
  generalize src.sub lis = v at *
  have hv : 0 < v.sq := hmin.trans hd
  have hl := len_pos hv
  rw [if_neg (not_le.mpr hd)]
  have hcs : (fwd.cross up).sq ≠ 0 := by
    rw [hc]
    have : (R.scale k).sq = R.sq * k ^ 2 := by unfold V3.scale V3.sq; ring
    rw [this, hR, one_mul]
    positivity
  rw [if_neg hcs, hc, normalized_scale hk hR, ef, normalized_scale hk' hF, ← eU]
  have hs := normalized_sq hv
  have dots : ∀ w : V3, v.dot w = v.len * v.normalized.dot w := by
    intro w; rw [normalized_dot]; field_simp
  generalize hsn : v.normalized = s at *
  have comp := complete hR hF hRF s s
  rw [← eU] at comp
  have hss : s.dot s = 1 := hs
  have hUU : U.sq = 1 := hf.unitU
  have hRU : R.dot U = 0 := by rw [eU]; unfold V3.dot V3.cross; simp only; ring
  have hFU : F.dot U = 0 := hf.orth
  have u1 : -1 ≤ s.dot U := by nlinarith [sq_nonneg (s.dot R), sq_nonneg (s.dot F)]
  have u2 : s.dot U ≤ 1 := by nlinarith [sq_nonneg (s.dot R), sq_nonneg (s.dot F)]
  obtain ⟨el1, el2, el3, el4⟩ := rad_elevationOf u1 u2
  have pR : (s.sub (U.scale (s.dot U))).dot R = s.dot R := by
    have : (s.sub (U.scale (s.dot U))).dot R = s.dot R - s.dot U * R.dot U := by
      unfold V3.dot V3.sub V3.scale; simp only; ring
    rw [this, hRU]; ring
  have pF : (s.sub (U.scale (s.dot U))).dot F = s.dot F := by
    have : (s.sub (U.scale (s.dot U))).dot F = s.dot F - s.dot U * F.dot U := by
      unfold V3.dot V3.sub V3.scale; simp only; ring
    rw [this, hFU]; ring
  have psq : (s.sub (U.scale (s.dot U))).sq = 1 - (s.dot U) ^ 2 := by
    have : (s.sub (U.scale (s.dot U))).sq = s.dot s - 2 * (s.dot U) * (s.dot U) + (s.dot U) ^ 2 * U.sq := by
      unfold V3.dot V3.sub V3.scale V3.sq; simp only; ring
    rw [this, hss, hUU]; ring
  have hsum : s.dot R ^ 2 + s.dot F ^ 2 = 1 - s.dot U ^ 2 := by linarith
  by_cases hz : (s.sub (U.scale (s.dot U))).sq = 0
  · rw [if_pos hz]
    simp only
    have h0 : s.dot R ^ 2 + s.dot F ^ 2 = 0 := by rw [hsum, ← psq, hz]
    have hR0 : s.dot R = 0 := by nlinarith [sq_nonneg (s.dot R), sq_nonneg (s.dot F)]
    have hF0 : s.dot F = 0 := by nlinarith [sq_nonneg (s.dot R), sq_nonneg (s.dot F)]
    have hcos : cos (rad (elevationOf (s.dot U))) = 0 := by rw [el2, ← psq, hz, sqrt_zero]
    refine ⟨?_, ?_, ?_, by norm_num, ⟨el3, el4⟩, fun _ _ => rfl⟩
    · rw [dots R, hR0, hcos]; ring
    · rw [dots F, hF0, hcos]; ring
    · rw [dots U, el1]
  · rw [if_neg hz]
    simp only
    have hpos : 0 < (s.sub (U.scale (s.dot U))).sq := lt_of_le_of_ne (V3.sq_nonneg _) (Ne.symm hz)
    have hlp := len_pos hpos
    have hl2 := len_sq (s.sub (U.scale (s.dot U)))
    have hlen : (s.sub (U.scale (s.dot U))).len = √(1 - (s.dot U) ^ 2) := by
      unfold V3.len; rw [psq]
    rw [normalized_dot, normalized_dot, pR, pF]
    have hone : (s.dot R / (s.sub (U.scale (s.dot U))).len) ^ 2 + (s.dot F / (s.sub (U.scale (s.dot U))).len) ^ 2 = 1 := by
      rw [div_pow, div_pow, ← add_div, hl2, hsum, psq, div_self]
      rw [← psq]; exact hz
    obtain ⟨a1, a2, a3, a4⟩ := rad_azimuthOf hone
    refine ⟨?_, ?_, ?_, ⟨a3, a4⟩, ⟨el3, el4⟩, fun z1 z2 => absurd ?_ hz⟩
    · rw [dots R, a1, el2, ← hlen]; field_simp
    · rw [dots F, a2, el2, ← hlen]; field_simp
    · rw [dots U, el1]
    · rw [dots R] at z1
      rw [dots F] at z2
      have y1 : s.dot R = 0 := (mul_eq_zero.mp z1).resolve_left hl.ne'
      have y2 : s.dot F = 0 := (mul_eq_zero.mp z2).resolve_left hl.ne'
      rw [psq, ← hsum, y1, y2]; ring

/-- The default listener looks along -z with the head along y; x is on the right hand. -/
theorem default_frame : IsFrame ⟨0, 0, -1⟩ ⟨0, 1, 0⟩ ⟨1, 0, 0⟩ ⟨0, 0, -1⟩ ⟨0, 1, 0⟩ := by
  refine ⟨⟨1, one_pos, ?_⟩, ?_, ?_, ?_, ?_, ?_, ?_⟩ <;> norm_num [V3.scale, V3.sq, V3.dot, V3.cross]

/-- C65: the axes exist whenever the two vectors of the listener are not parallel, so that `C65_spherical` covers every
listener and every source except those of `C65_degenerate`. -/
theorem C65_frame_exists (fwd up : V3) (h : (fwd.cross up).sq ≠ 0) : ∃ R F U, IsFrame fwd up R F U := by
  have hc : 0 < (fwd.cross up).sq := lt_of_le_of_ne (V3.sq_nonneg _) (Ne.symm h)
  have lag : (fwd.cross up).sq = fwd.sq * up.sq - fwd.dot up ^ 2 := by
    unfold V3.sq V3.cross V3.dot; ring
  have hf : 0 < fwd.sq := by
    rcases (V3.sq_nonneg fwd).lt_or_eq with h1 | h1
    · exact h1
    · rw [← h1] at lag; nlinarith [sq_nonneg (fwd.dot up)]
  have hlf := len_pos hf
  have hlc := len_pos hc
  have hF := normalized_sq hf
  have hR := normalized_sq hc
  have hRF : (fwd.cross up).normalized.dot fwd.normalized = 0 := by
    have : (fwd.cross up).normalized.dot fwd.normalized
        = (fwd.cross up).dot fwd * (1 / (fwd.cross up).len) * (1 / fwd.len) := by
      simp only [V3.normalized, V3.scale, V3.dot]; ring
    rw [this, show (fwd.cross up).dot fwd = 0 by simp only [V3.dot, V3.cross]; ring]; ring
  have hRu : up.dot (fwd.cross up).normalized = 0 := by
    have : up.dot (fwd.cross up).normalized = up.dot (fwd.cross up) * (1 / (fwd.cross up).len) := by
      simp only [V3.normalized, V3.scale, V3.dot]; ring
    rw [this, show up.dot (fwd.cross up) = 0 by simp only [V3.dot, V3.cross]; ring]; ring
  refine ⟨(fwd.cross up).normalized, fwd.normalized, (fwd.cross up).normalized.cross fwd.normalized, ?_⟩
  refine ⟨⟨fwd.len, hlf, ?_⟩, hF, ?_, ?_, ?_, hRu, ?_⟩
  · have e : 1 / fwd.len * fwd.len = 1 := by field_simp
    ext <;> simp only [V3.normalized, V3.scale, mul_assoc, e, mul_one]
  · clear hRu
    generalize (fwd.cross up).normalized = R at *
    generalize fwd.normalized = F at *
    have : (R.cross F).sq = R.sq * F.sq - R.dot F ^ 2 := by unfold V3.sq V3.cross V3.dot; ring
    rw [this, hR, hF, hRF]; ring
  · unfold V3.dot V3.cross; simp only; ring
  · clear hRu
    generalize (fwd.cross up).normalized = R at *
    generalize fwd.normalized = F at *
    clear * - hF hRF
    obtain ⟨a, b, c⟩ := F
    obtain ⟨d, e, f⟩ := R
    simp only [V3.sq, V3.dot, V3.cross] at *
    ext
    · simp only; linear_combination -d * hF + a * hRF
    · simp only; linear_combination -e * hF + b * hRF
    · simp only; linear_combination -f * hF + c * hRF
  · have : up.dot ((fwd.cross up).normalized.cross fwd.normalized)
        = (fwd.cross up).sq * (1 / (fwd.cross up).len) * (1 / fwd.len) := by
      simp only [V3.normalized, V3.scale, V3.dot, V3.cross, V3.sq]; ring
    rw [this]; positivity

/-- C65: without a direction (source at the listener, or parallel vectors of the listener) both angles are 0. -/
theorem C65_degenerate (src lis fwd up : V3)
    (h : (src.sub lis).sq ≤ minPositive ∨ (fwd.cross up).sq = 0) : azimuthElevation src lis fwd up = (0, 0) := by
  unfold azimuthElevation
  simp only
  by_cases h1 : (src.sub lis).sq ≤ minPositive
  · rw [if_pos h1]
  · rw [if_neg h1, if_pos (h.resolve_left h1)]

/-- A source to the right and a little behind the default listener: the sine of its azimuth is 3/5, the cosine -4/5. -/
example : ∃ az el, azimuthElevation ⟨3, 0, 4⟩ ⟨0, 0, 0⟩ ⟨0, 0, -1⟩ ⟨0, 1, 0⟩ = (az, el) ∧
    sin (rad el) = 0 ∧ cos (rad el) * sin (rad az) = 3 / 5 ∧ cos (rad el) * cos (rad az) = -4 / 5 := by
  have h := C65_spherical (src := ⟨3, 0, 4⟩) (lis := ⟨0, 0, 0⟩) default_frame
    (by norm_num [V3.sq, V3.sub, minPositive])
  generalize azimuthElevation _ _ _ _ = q at h ⊢
  refine ⟨q.1, q.2, rfl, ?_⟩
  have e : ((⟨3, 0, 4⟩ : V3).sub ⟨0, 0, 0⟩).len = 5 := by
    rw [V3.len, show ((⟨3, 0, 4⟩ : V3).sub ⟨0, 0, 0⟩).sq = 5 ^ 2 by norm_num [V3.sq, V3.sub]]
    exact Real.sqrt_sq (by norm_num)
  have a := h.above
  have b := h.right
  have c := h.front
  rw [e] at a b c
  norm_num [V3.dot, V3.sub] at a b c
  exact ⟨a, by linarith, by linarith⟩

end Verif.Panner
